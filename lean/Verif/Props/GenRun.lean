import Verif.Props.Gen
/-!
# Running the code generator

The files that it writes are determined by processors.yml and by which of the old files declare `Process`; running it again changes nothing; whether a file has `Process` is the user's choice and is kept.
-/

namespace Sawmill
namespace Gen
open Rfc

/-! ## The functions that a generated file declares -/

theorem funcsFrom_append (s : Nat × Phase) (a b : List Tok) : funcsFrom s (a ++ b) = ((funcsFrom (funcsFrom s a).1 b).1, (funcsFrom s a).2 ++ (funcsFrom (funcsFrom s a).1 b).2) := by
  induction a generalizing s with
  | nil => simp [funcsFrom]
  | cons x xs ih => simp only [List.cons_append, funcsFrom, ih, List.append_assoc]

/-- In the state `s`, the tokens `ts` declare `fs` and lead to `s'`. -/
def Declares (s : Nat × Phase) (ts : List Tok) (s' : Nat × Phase) (fs : List Bytes) : Prop := funcsFrom s ts = (s', fs)

instance (s s' : Nat × Phase) (ts : List Tok) (fs : List Bytes) : Decidable (Declares s ts s' fs) := inferInstanceAs (Decidable (funcsFrom s ts = (s', fs)))

theorem Declares.append {s s1 s2 : Nat × Phase} {a b : List Tok} {f g : List Bytes} (h1 : Declares s a s1 f) (h2 : Declares s1 b s2 g) : Declares s (a ++ b) s2 (f ++ g) := by
  unfold Declares at *
  rw [funcsFrom_append, h1, h2]

theorem Declares.flatMap {α : Type} {s : Nat × Phase} {f : α → List Tok} : ∀ {l : List α}, (∀ x ∈ l, Declares s (f x) s []) → Declares s (l.flatMap f) s []
  | [], _ => rfl
  | x :: l, h => by
    rw [List.flatMap_cons]
    exact (h x (by simp)).append (Declares.flatMap fun y hy => h y (by simp [hy]))

theorem Declares.word {d : Nat} {ph : Phase} (w : Bytes) : Declares (d + 1, ph) [.word w] (d + 1, ph) [] := rfl

theorem matched_declares {ts : List Tok} (h : Matched ts) (d : Nat) (ph : Phase) : Declares (d + 1, ph) ts (d + 1, ph) [] := h d ph

/-- The functions that the declarations of a processor declare. -/
theorem declared_funcs {package type name : Bytes} {imports : List Bytes} {opts : List (Bytes × List Tok × Opt)} {defaults : List (Bytes × List Tok)} {process : Bool} (ho : ∀ o ∈ opts, Matched o.2.1) (hd : ∀ d ∈ defaults, Matched d.2) :
    declaredFuncs (declarations package type name imports opts defaults process) = [lit "init", lit "InitDefaults", lit "New", lit "Config", lit "String"] ++ if process then [lit "Process"] else [] := by
  have a1 : Declares (0, .start) (code (lit "package")) (0, .mid) [] := by decide +kernel
  have a2 : Declares (0, .mid) [.word package] (0, .mid) [] := rfl
  have a3 : Declares (0, .mid) (code (lit ";")) (0, .start) [] := by decide +kernel
  have a4 : Declares (0, .start) (code (lit "import (")) (1, .mid) [] := by decide +kernel
  have a5 : Declares (1, .mid) (imports.flatMap fun i => quoted i ++ code (lit ";")) (1, .mid) [] := Declares.flatMap fun i _ => rfl
  have a6 : ∀ s, Declares (1, .mid) (quoted s) (1, .mid) [] := fun _ => rfl
  have a7 : Declares (1, .mid) (code (lit ";")) (1, .mid) [] := by decide +kernel
  have a8 : Declares (1, .mid) (code (lit "; ) ;")) (0, .start) [] := by decide +kernel
  have a9 : Declares (0, .start) (code (lit "func init ( ) { registry . MustRegister ( processorName , New ) ; } ;")) (0, .start) [lit "init"] := by decide +kernel
  have a10 : Declares (0, .start) (code (lit "const ( processorName =")) (1, .mid) [] := by decide +kernel
  have a11 : Declares (0, .start) (code (lit "type Config struct {")) (1, .mid) [] := by decide +kernel
  have a12 : Declares (1, .mid) (opts.flatMap fun o => .word o.1 :: o.2.1 ++ [.raw (tagOf o.2.2)] ++ code (lit ";")) (1, .mid) [] := by
    refine Declares.flatMap fun o ho' => ?_
    exact (((Declares.word o.1).append (matched_declares (ho o ho') 0 .mid)).append (s1 := (1, .mid)) (f := []) (b := [.raw (tagOf o.2.2)]) (g := []) (s2 := (1, .mid)) rfl).append (g := []) rfl
  have a13 : Declares (1, .mid) (code (lit "} ;")) (0, .start) [] := by decide +kernel
  have a14 : Declares (0, .start) (code (lit "func ( c * Config ) InitDefaults ( ) {")) (1, .mid) [lit "InitDefaults"] := by decide +kernel
  have a15 : Declares (1, .mid) (defaults.flatMap fun d => code (lit "c .") ++ [.word d.1] ++ code (lit "=") ++ d.2 ++ code (lit ";")) (1, .mid) [] := by
    refine Declares.flatMap fun d hd' => ?_
    have b1 : Declares (1, .mid) (code (lit "c .")) (1, .mid) [] := by decide +kernel
    have b2 : Declares (1, .mid) (code (lit "=")) (1, .mid) [] := by decide +kernel
    exact (((b1.append (Declares.word d.1)).append b2).append (matched_declares (hd d hd') 0 .mid)).append a7
  have a16 : Declares (0, .start) (code (lit "type")) (0, .mid) [] := by decide +kernel
  have a17 : Declares (0, .mid) [.word type] (0, .mid) [] := rfl
  have a18 : Declares (0, .mid) (code (lit "struct { config Config ; } ;")) (0, .start) [] := by decide +kernel
  have a19 : Declares (0, .start) (code (lit "func New ( config Config ) ( *")) (1, .mid) [lit "New"] := by decide +kernel
  have a20 : Declares (1, .mid) (code (lit ", error ) { return &")) (1, .mid) [] := by decide +kernel
  have a21 : Declares (1, .mid) (code (lit "{ config : config } , nil ; } ;")) (0, .start) [] := by decide +kernel
  have a22 : Declares (0, .start) (code (lit "func ( p *")) (1, .due) [] := by decide +kernel
  have a23 : Declares (1, .due) (code (lit ") Config ( ) Config { return p . config ; } ;")) (0, .start) [lit "Config"] := by decide +kernel
  have a24 : Declares (1, .due) (code (lit ") String ( ) string { return processor . ConfigString ( processorName , p . config ) ; } ;")) (0, .start) [lit "String"] := by decide +kernel
  have a25 : Declares (0, .start) (if process then code (lit "func ( p *") ++ [.word type] ++ code (lit ") Process ( event processor . Event ) error { return nil ; } ;") else []) (0, .start) (if process then [lit "Process"] else []) := by
    cases process with
    | false => rfl
    | true =>
      have : Declares (1, .due) (code (lit ") Process ( event processor . Event ) error { return nil ; } ;")) (0, .start) [lit "Process"] := by decide +kernel
      exact (a22.append (Declares.word type)).append this
  have w1 : ∀ ph, Declares (1, ph) [.word type] (1, ph) [] := fun _ => rfl
  have all : Declares (0, .start) (declarations package type name imports opts defaults process) (0, .start) ([lit "init", lit "InitDefaults", lit "New", lit "Config", lit "String"] ++ if process then [lit "Process"] else []) := by
    unfold declarations
    have b := ((((((((((a1.append a2).append a3).append a4).append a5).append (a6 (lit "github.com/andrewkroh/go-sawmill/pkg/processor"))).append a7).append (a6 (lit "github.com/andrewkroh/go-sawmill/pkg/processor/registry"))).append a8).append a9).append a10).append (a6 name)
    have b := (((((b.append a8).append a11).append a12).append a13).append a14).append a15
    have b := ((((b.append a13).append a16).append a17).append a18).append a19
    have b := (((b.append (w1 .mid)).append a20).append (w1 .mid)).append a21
    have b := ((((((b.append a22).append (w1 .due)).append a23).append a22).append (w1 .due)).append a24).append a25
    exact b
  unfold declaredFuncs
  rw [all]

/-! ## Names and types -/

theorem fields_sep {sep : UInt8} (hs : isSeparator sep = true) (b : Bytes) : ∀ a : Bytes, fields (a ++ sep :: b) = fields a ++ fields b
  | [] => by simp [fields, hs]
  | [x] => by
    cases hx : isSeparator x with
    | true => simp [fields, hx, hs]
    | false => simp [fields, hx, hs]
  | x :: y :: a => by
    have ih := fields_sep hs b (y :: a)
    rw [List.cons_append] at ih
    cases hx : isSeparator x with
    | true =>
      simp only [List.cons_append, fields, hx, if_true] at ih ⊢
      exact ih
    | false =>
      have e1 : ∀ r, fields (x :: y :: r) = if isSeparator y then [x] :: fields (y :: r) else match fields (y :: r) with | w :: ws => (x :: w) :: ws | [] => [[x]] := by
        intro r
        rw [fields, if_neg (by simp [hx])]
        rfl
      rw [List.cons_append, List.cons_append, e1, e1, ih]
      cases hy : isSeparator y with
      | true => simp
      | false =>
        simp only [Bool.false_eq_true, if_false]
        cases hf : fields (y :: a) with
        | cons w ws => rfl
        | nil =>
          exfalso
          cases a with
          | nil => simp [fields, hy] at hf
          | cons z a =>
            rw [fields, if_neg (by simp [hy])] at hf
            split at hf
            · exact absurd hf (by simp)
            · split at hf <;> exact absurd hf (by simp)

theorem fields_word {w : Bytes} (hne : w ≠ []) (h : ∀ b ∈ w, isSeparator b = false) : fields w = [w] := by
  induction w with
  | nil => exact absurd rfl hne
  | cons x r ih =>
    have hx := h x (by simp)
    cases r with
    | nil => simp [fields, hx]
    | cons y r =>
      have hy := h y (by simp)
      rw [fields, if_neg (by simp [hx])]
      simp only [hy, Bool.false_eq_true, if_false]
      rw [ih (by simp) (fun b hb => h b (by simp [hb]))]

/-- **C77.** The Go name of an option or a processor: it is made word by word; dots, underscores and at signs only separate words (so that two names that differ only in them collide); a word is capitalised, and one of the abbreviations is put in capitals. -/
theorem go_name (E : GenEnv) :
    goTypeName E [] = [] ∧
    (∀ a b sep, sep ∈ [46, 95, 64] → goTypeName E (a ++ sep :: b) = goTypeName E a ++ goTypeName E b) ∧
    ∀ w, w ≠ [] → (∀ b ∈ w, b ∉ ([46, 95, 64] : Bytes)) →
      goTypeName E w = E.title (if E.lower w ∈ [lit "id", lit "ppid", lit "pid", lit "pgid", lit "mac", lit "ip", lit "iana", lit "uid", lit "ecs", lit "as", lit "icmp"] then E.upper w else w) := by
  have sep_iff : ∀ b, isSeparator b = true ↔ b ∈ ([46, 95, 64] : Bytes) := by
    intro b
    simp [isSeparator, or_assoc]
  refine ⟨rfl, ?_, ?_⟩
  · intro a b sep hs
    unfold goTypeName
    rw [fields_sep ((sep_iff sep).2 hs), List.flatMap_append]
  · intro w hne hw
    unfold goTypeName
    rw [fields_word hne fun b hb => by rw [Bool.eq_false_iff]; exact fun h => hw b hb ((sep_iff b).1 h)]
    simp only [List.flatMap_cons, List.flatMap_nil, List.append_nil, abbreviations]
    congr 1
    by_cases hc : E.lower w ∈ abbreviated
    · rw [if_pos (List.elem_iff.2 hc)]
      exact (if_pos hc).symm
    · rw [if_neg (fun h => hc (List.elem_iff.1 h))]
      exact (if_neg hc).symm

/-! ## Runs -/

/-- What is known of gofmt and of the parser: the order of the imports, which stand in one block, makes no difference; and the parser finds in a formatted file the functions that its source declares. -/
structure GenEnv.Lawful (E : GenEnv) : Prop where
  imports : ∀ {name desc : Bytes} {opts : List Opt} {l1 l2 : List Bytes} {process : Bool} {t1 t2 : Bytes}, Ident (E.lower name) → l1.Perm l2 → (∀ i ∈ l1, Quotable i) → render E name desc opts l1 process = some t1 → render E name desc opts l2 process = some t2 → E.format t1 = E.format t2
  funcs : ∀ {src out : Bytes}, (tokens src).head? = some (.word (lit "package")) → E.format src = some out → ∃ fns, E.parse out = some fns ∧ ∀ f, f ∈ fns ↔ f ∈ declaredFuncs (tokens src)

theorem pathOf_goFile (name : Bytes) : pathOf name = goFile name := by
  rw [pathOf, goFile, show lit "/" = [47] from by decide]
  simp

/-- The old file is missing, or is not Go, or declares `Process`: then, and only then, the new one declares it. -/
def WantsProcess (E : GenEnv) (fs : Files) (name : Bytes) : Prop := ∀ src fns, fs (goFile name) = some src → E.parse src = some fns → lit "Process" ∈ fns

theorem include_iff (E : GenEnv) (fs : Files) (name : Bytes) : includeProcessFunc E fs name = true ↔ WantsProcess E fs name := by
  unfold includeProcessFunc hasProcessFunc WantsProcess
  rw [← pathOf_goFile]
  cases h : fs (pathOf name) with
  | none => simp
  | some src =>
    simp only [Option.some.injEq]
    cases hp : E.parse src with
    | none =>
      refine ⟨fun _ src' fns' e1 e2 => ?_, fun _ => rfl⟩
      subst e1
      rw [hp] at e2
      exact absurd e2 (by simp)
    | some fns =>
      simp only [Option.map_some]
      constructor
      · intro hc src' fns' e1 e2
        subst e1
        rw [hp] at e2
        obtain rfl := Option.some.inj e2
        cases hcon : fns.contains (lit "Process") with
        | true => exact List.elem_iff.1 hcon
        | false => rw [hcon] at hc; exact absurd hc (by simp)
      · intro hw
        have : fns.contains (lit "Process") = true := List.elem_iff.2 (hw src fns rfl hp)
        rw [this]

/-- `out` is a possible result for the processor `x` when the old files are `fs` (nothing: the program stops). -/
def OutOf (E : GenEnv) (fs : Files) (x : Bytes × Proc) (out : Option Bytes) : Prop :=
  ∃ opts imports, SortedByName x.2.configuration opts ∧ ConfigTypeImports opts imports ∧ out = output E fs x.1 x.2.description opts imports

theorem sorted_unique {opts s1 s2 : List Opt} (hn : (opts.map (·.name)).Nodup) (h1 : SortedByName opts s1) (h2 : SortedByName opts s2) : s1 = s2 := by
  have inj : ∀ {l : List Opt}, (l.map (·.name)).Nodup → ∀ a ∈ l, ∀ b ∈ l, a.name = b.name → a = b := by
    intro l
    induction l with
    | nil => simp
    | cons x l ih =>
      intro hn a ha b hb e
      simp only [List.map_cons, List.nodup_cons, List.mem_map, not_exists, not_and] at hn
      rcases List.mem_cons.1 ha with rfl | ha
      · rcases List.mem_cons.1 hb with rfl | hb
        · rfl
        · exact absurd e.symm (hn.1 b hb)
      · rcases List.mem_cons.1 hb with rfl | hb
        · exact absurd e (hn.1 a (by assumption))
        · exact ih hn.2 a ha b hb e
  refine List.Perm.eq_of_pairwise ?_ h1.2 h2.2 (h1.1.trans h2.1.symm)
  intro a b ha hb hab hba
  refine inj hn a (h1.1.mem_iff.1 ha) b (h2.1.mem_iff.1 hb) ?_
  rcases bLt_total a.name b.name with h | h | h
  · exact h
  · rw [h] at hba; exact absurd hba (by simp)
  · rw [h] at hab; exact absurd hab (by simp)

theorem imports_perm {opts : List Opt} {l1 l2 : List Bytes} (h1 : ConfigTypeImports opts l1) (h2 : ConfigTypeImports opts l2) : l1.Perm l2 :=
  (List.perm_ext_iff_of_nodup h1.1 h2.1).2 fun i => (h1.2 i).trans (h2.2 i).symm

theorem render_isSome {E : GenEnv} {name desc : Bytes} {opts : List Opt} {l1 l2 : List Bytes} {process : Bool} : (render E name desc opts l1 process).isSome = (render E name desc opts l2 process).isSome := by
  unfold render
  simp only
  cases renderFields E opts with
  | none => rfl
  | some _ =>
    cases descriptionToComment E [] desc with
    | none => rfl
    | some _ => simp only [Option.isSome_some]

/-- A processor: the name of its package is an identifier, the names of its options differ, and the imports can be quoted. -/
def ProcOk (E : GenEnv) (x : Bytes × Proc) : Prop := Ident (E.lower x.1) ∧ (x.2.configuration.map (·.name)).Nodup ∧ ∀ o ∈ x.2.configuration, ∀ i, Needs o i → Quotable i

theorem outOf_unique {E : GenEnv} (hE : E.Lawful) {fs fs' : Files} {x : Bytes × Proc} (hx : ProcOk E x) (hinc : includeProcessFunc E fs x.1 = includeProcessFunc E fs' x.1) {o o' : Option Bytes} (h : OutOf E fs x o) (h' : OutOf E fs' x o') : o = o' := by
  obtain ⟨opts, l1, hs1, hi1, rfl⟩ := h
  obtain ⟨opts2, l2, hs2, hi2, rfl⟩ := h'
  obtain rfl := sorted_unique hx.2.1 hs1 hs2
  unfold output
  rw [← hinc]
  generalize includeProcessFunc E fs x.1 = inc
  have hq : ∀ i ∈ l1, Quotable i := by
    intro i hm
    obtain ⟨o, ho, he⟩ := List.mem_filterMap.1 ((hi1.2 i).1 hm)
    exact hx.2.2 o (hs1.1.mem_iff.1 ho) i ((needs_iff o i).1 he)
  have his := render_isSome (E := E) (name := x.1) (desc := x.2.description) (opts := opts) (l1 := l1) (l2 := l2) (process := inc)
  cases e1 : render E x.1 x.2.description opts l1 inc with
  | none =>
    rw [e1] at his
    cases e2 : render E x.1 x.2.description opts l2 inc with
    | none => rfl
    | some _ => rw [e2] at his; exact absurd his (by simp)
  | some t1 =>
    rw [e1] at his
    cases e2 : render E x.1 x.2.description opts l2 inc with
    | none => rw [e2] at his; exact absurd his (by simp)
    | some t2 => exact hE.imports hx.1 (imports_perm hi1 hi2) hq e1 e2

theorem pathOf_inj {a b : Bytes} (h : pathOf a = pathOf b) : a = b := by
  unfold pathOf at h
  have hl : a.length = b.length := by
    have := congrArg List.length h
    simp only [List.length_append] at this
    omega
  simp only [List.append_assoc] at h
  exact (List.append_inj h hl).1

theorem output_congr {E : GenEnv} {fs fs' : Files} {name : Bytes} (h : fs (pathOf name) = fs' (pathOf name)) : includeProcessFunc E fs name = includeProcessFunc E fs' name := by
  unfold includeProcessFunc hasProcessFunc
  rw [h]

theorem outOf_congr {E : GenEnv} {fs fs' : Files} {x : Bytes × Proc} (h : fs (pathOf x.1) = fs' (pathOf x.1)) {o : Option Bytes} (ho : OutOf E fs x o) : OutOf E fs' x o := by
  obtain ⟨opts, l, h1, h2, rfl⟩ := ho
  refine ⟨opts, l, h1, h2, ?_⟩
  unfold output
  rw [output_congr h]

theorem visitAll_spec {E : GenEnv} {fs0 : Files} {fs fs' : Files} {xs : List (Bytes × Proc)} {ok : Bool} (h : VisitAll E fs xs fs' ok) : (xs.map (·.1)).Nodup → (∀ x ∈ xs, fs (pathOf x.1) = fs0 (pathOf x.1)) →
    (ok = true ∧ (∀ x ∈ xs, ∃ out, OutOf E fs0 x (some out) ∧ fs' (pathOf x.1) = some out) ∧ ∀ p, (∀ x ∈ xs, p ≠ pathOf x.1) → fs' p = fs p) ∨ (ok = false ∧ (∃ x ∈ xs, OutOf E fs0 x none ∧ fs' (pathOf x.1) = fs (pathOf x.1)) ∧ (∀ x ∈ xs, fs' (pathOf x.1) = fs (pathOf x.1) ∨ ∃ out, OutOf E fs0 x (some out) ∧ fs' (pathOf x.1) = some out) ∧ ∀ p, (∀ x ∈ xs, p ≠ pathOf x.1) → fs' p = fs p) := by
  induction h with
  | done => intro _ _; exact .inl ⟨rfl, by simp, fun _ _ => rfl⟩
  | @fatal fs x xs hv =>
    intro _ hf
    refine .inr ⟨rfl, ⟨x, by simp, ?_, rfl⟩, fun _ _ => .inl rfl, fun _ _ => rfl⟩
    generalize hr : (none : Option Files) = r at hv
    cases hv with
    | @mk name p opts imports h1 h2 =>
      have : output E fs name p.description opts imports = none := by
        cases ho : output E fs name p.description opts imports with
        | none => rfl
        | some o => rw [ho] at hr; exact absurd hr (by simp)
      exact outOf_congr (fs := fs) (hf (name, p) (by simp)) ⟨opts, imports, h1, h2, this.symm⟩
  | @step fs fs1 fs2 x xs ok hv _ ih =>
    intro hn hf
    simp only [List.map_cons, List.nodup_cons, List.mem_map, not_exists, not_and] at hn
    have hdiff : ∀ y ∈ xs, pathOf y.1 ≠ pathOf x.1 := fun y hy e => hn.1 y hy (pathOf_inj e)
    generalize hr : some fs1 = r at hv
    cases hv with
    | @mk name p opts imports h1 h2 =>
      cases ho : output E fs name p.description opts imports with
      | none => rw [ho] at hr; exact absurd hr (by simp)
      | some out =>
        rw [ho] at hr
        simp only [Option.map_some, Option.some.injEq] at hr
        subst hr
        have hx : OutOf E fs0 (name, p) (some out) := outOf_congr (fs := fs) (hf (name, p) (by simp)) ⟨opts, imports, h1, h2, ho.symm⟩
        rcases ih hn.2 (fun y hy => by
          have := hdiff y hy
          simp only [Files.write]
          rw [if_neg this]
          exact hf y (by simp [hy])) with ⟨hok, hall, hel⟩ | ⟨hok, ⟨y, hy, hyo, hye⟩, hall, hel⟩
        · refine .inl ⟨hok, ?_, ?_⟩
          · intro y hy
            rcases List.mem_cons.1 hy with rfl | hy
            · refine ⟨out, hx, ?_⟩
              rw [hel (pathOf name) (fun z hz e => hdiff z hz e.symm)]
              simp [Files.write]
            · exact hall y hy
          · intro q hq
            rw [hel q fun y hy => hq y (by simp [hy])]
            simp only [Files.write]
            rw [if_neg (hq (name, p) (by simp))]
        · have keep : ∀ z ∈ xs, (fs.write (pathOf name) out) (pathOf z.1) = fs (pathOf z.1) := fun z hz => by
            simp only [Files.write]
            rw [if_neg (hdiff z hz)]
          refine .inr ⟨hok, ⟨y, by simp [hy], hyo, hye.trans (keep y hy)⟩, ?_, ?_⟩
          · intro z hz
            rcases List.mem_cons.1 hz with rfl | hz
            · right
              refine ⟨out, hx, ?_⟩
              rw [hel (pathOf name) (fun z hz e => hdiff z hz e.symm)]
              simp [Files.write]
            · rw [← keep z hz]
              exact hall z hz
          · intro q hq
            rw [hel q fun y hy => hq y (by simp [hy])]
            simp only [Files.write]
            rw [if_neg (hq (name, p) (by simp))]

theorem order_perm {s : Schema} {xs : List (Bytes × Proc)} (h : Order s xs) : xs.Perm s.flatten := by
  induction h with
  | nil => exact .refl _
  | cons h1 _ ih => exact h1.append ih

/-- What a run does, whatever the order of its visits: either it stops, on account of a processor whose file stays as it was (and every other file is as it was or has been written as it should), or it writes the file of each processor and nothing else. -/
theorem main_spec {E : GenEnv} {fs fs' : Files} {s : Schema} {ok : Bool} (hn : (s.flatten.map (·.1)).Nodup) (h : Main E fs s fs' ok) :
    (ok = true ∧ (∀ x ∈ s.flatten, ∃ out, OutOf E fs x (some out) ∧ fs' (goFile x.1) = some out) ∧ ∀ p, (∀ x ∈ s.flatten, p ≠ goFile x.1) → fs' p = fs p) ∨ 
    (ok = false ∧ (∃ x ∈ s.flatten, OutOf E fs x none ∧ fs' (goFile x.1) = fs (goFile x.1)) ∧ (∀ x ∈ s.flatten, fs' (goFile x.1) = fs (goFile x.1) ∨ ∃ out, OutOf E fs x (some out) ∧ fs' (goFile x.1) = some out) ∧ ∀ p, (∀ x ∈ s.flatten, p ≠ goFile x.1) → fs' p = fs p) := by
  obtain ⟨xs, ho, hv⟩ := h
  simp only [← pathOf_goFile]
  have hp := order_perm ho
  rcases visitAll_spec (fs0 := fs) hv ((hp.map _).symm.nodup hn) (fun _ _ => rfl) with ⟨h1, h2, h3⟩ | ⟨h1, ⟨x, hx, h2, h2'⟩, h3, h4⟩
  · exact .inl ⟨h1, fun x hx => h2 x (hp.mem_iff.2 hx), fun p hne => h3 p fun x hx => hne x (hp.mem_iff.1 hx)⟩
  · exact .inr ⟨h1, ⟨x, hp.mem_iff.1 hx, h2, h2'⟩, fun x hx => h3 x (hp.mem_iff.2 hx), fun p hne => h4 p fun x hx => hne x (hp.mem_iff.1 hx)⟩

/-- Names that differ, in a file whose processors are all right. -/
def Schema.Ok (E : GenEnv) (s : Schema) : Prop := (s.flatten.map (·.1)).Nodup ∧ ∀ x ∈ s.flatten, ProcOk E x

/-- **C77.** Neither the order in which the maps are visited, nor the order of the imports, nor the sorting algorithm makes a difference: two runs on the same files either both stop, or write the same files. -/
theorem generate_deterministic {E : GenEnv} (hE : E.Lawful) {s : Schema} (hs : s.Ok E) {fs fs1 fs2 : Files} {ok1 ok2 : Bool} (h1 : Main E fs s fs1 ok1) (h2 : Main E fs s fs2 ok2) : ok1 = ok2 ∧ (ok1 = true → fs1 = fs2) := by
  rcases main_spec hs.1 h1 with ⟨rfl, a1, b1⟩ | ⟨rfl, ⟨x, hx, a1, _⟩, _⟩
  · rcases main_spec hs.1 h2 with ⟨rfl, a2, b2⟩ | ⟨rfl, ⟨x, hx, a2, _⟩, _⟩
    · refine ⟨rfl, fun _ => funext fun p => ?_⟩
      by_cases hp : ∃ x ∈ s.flatten, p = goFile x.1
      · obtain ⟨x, hx, rfl⟩ := hp
        obtain ⟨o1, h1, e1⟩ := a1 x hx
        obtain ⟨o2, h2, e2⟩ := a2 x hx
        rw [e1, e2, outOf_unique hE (hs.2 x hx) rfl h1 h2]
      · have hne : ∀ x ∈ s.flatten, p ≠ goFile x.1 := fun x hx e => hp ⟨x, hx, e⟩
        rw [b1 p hne, b2 p hne]
    · obtain ⟨o1, h1, _⟩ := a1 x hx
      exact absurd (outOf_unique hE (hs.2 x hx) rfl h1 a2) (by simp)
  · rcases main_spec hs.1 h2 with ⟨rfl, a2, b2⟩ | ⟨rfl, _⟩
    · obtain ⟨o2, h2, _⟩ := a2 x hx
      exact absurd (outOf_unique hE (hs.2 x hx) rfl a1 h2) (by simp)
    · exact ⟨rfl, fun h => absurd h (by simp)⟩

/-- Names, types and defaults of all processors are harmless, and the brackets in types and defaults match. -/
def Schema.Presentable (E : GenEnv) (s : Schema) (ty : Opt → List Tok) (df : Dflt → List Tok) : Prop :=
  ∀ x ∈ s.flatten, Gen.Presentable E x.1 x.2.configuration ty df ∧ (∀ o ∈ x.2.configuration, Matched (ty o)) ∧ ∀ o ∈ x.2.configuration, ∀ d, o.default = some d → Matched (df d)

theorem Presentable.perm {E : GenEnv} {name : Bytes} {opts opts' : List Opt} {ty : Opt → List Tok} {df : Dflt → List Tok} (h : Presentable E name opts ty df) (hp : opts'.Perm opts) : Presentable E name opts' ty df :=
  ⟨h.pkg, h.type, h.name, fun o ho => h.field o (hp.mem_iff.1 ho), fun o ho => h.tag o (hp.mem_iff.1 ho), fun o ho => h.fieldType o (hp.mem_iff.1 ho), fun o ho => h.default o (hp.mem_iff.1 ho), fun o ho => h.strDefault o (hp.mem_iff.1 ho), fun o ho => h.imports o (hp.mem_iff.1 ho)⟩

/-- **C77.** What a run that comes to its end leaves behind: for each processor, a file that gofmt made of a text with the tokens of its declarations, with its options in the order of their names, each import once, and with `Process` if the old file is missing, is not Go, or declares it;
and all other files as they were. -/
theorem generate_writes {E : GenEnv} {s : Schema} (hn : (s.flatten.map (·.1)).Nodup) {ty : Opt → List Tok} {df : Dflt → List Tok} (hp : s.Presentable E ty df) {fs fs' : Files} (h : Main E fs s fs' true) :
    (∀ x ∈ s.flatten, ∃ (opts : List Opt) (imports : List Bytes) (process : Bool) (text out : Bytes), opts.Perm x.2.configuration ∧ (opts.Pairwise fun a b => bLt b.name a.name = false) ∧ imports.Nodup ∧ (∀ i, i ∈ imports ↔ ∃ o ∈ opts, ∃ t, o.type = i ++ 46 :: t ∧ (46 : UInt8) ∉ t) ∧
      (process = true ↔ WantsProcess E fs x.1) ∧
      tokens text = declarations (E.lower x.1) (goTypeName E x.1) x.1 imports (opts.map fun o => (goTypeName E o.name, ty o, o)) (opts.filterMap fun o => o.default.map fun d => (goTypeName E o.name, df d)) process ∧
      E.format text = some out ∧ fs' (goFile x.1) = some out) ∧
    ∀ p, (∀ x ∈ s.flatten, p ≠ goFile x.1) → fs' p = fs p := by
  rcases main_spec hn h with ⟨_, h1, h2⟩ | ⟨h, _⟩
  · refine ⟨fun x hx => ?_, h2⟩
    obtain ⟨out, ⟨opts, imports, hs, hi, ho⟩, hf⟩ := h1 x hx
    unfold output at ho
    obtain ⟨text, ht, hfm⟩ := Option.bind_eq_some_iff.1 ho.symm
    refine ⟨opts, imports, _, text, out, hs.1, hs.2, hi.1, ?_, include_iff E fs x.1, generated_tokens ((hp x hx).1.perm hs.1) hi ht, hfm, hf⟩
    intro i
    rw [hi.2, List.mem_filterMap]
    constructor
    · rintro ⟨o, ho, he⟩; exact ⟨o, ho, (needs_iff o i).1 he⟩
    · rintro ⟨o, ho, he⟩; exact ⟨o, ho, (needs_iff o i).2 he⟩
  · exact absurd h (by simp)

theorem declarations_head (package type name : Bytes) (imports : List Bytes) (opts : List (Bytes × List Tok × Opt)) (defaults : List (Bytes × List Tok)) (process : Bool) :
    (declarations package type name imports opts defaults process).head? = some (.word (lit "package")) := by
  have e : code (lit "package") = [.word (lit "package")] := by decide +kernel
  unfold declarations
  rw [e]
  simp only [List.append_assoc, List.cons_append, List.head?_cons]

/-- **C77.** Running the generator again, on the files that it left behind, changes nothing. -/
theorem generate_idempotent {E : GenEnv} (hE : E.Lawful) {s : Schema} (hs : s.Ok E) {ty : Opt → List Tok} {df : Dflt → List Tok} (hp : s.Presentable E ty df) {fs fs1 fs2 : Files} {ok : Bool} (h1 : Main E fs s fs1 true) (h2 : Main E fs1 s fs2 ok) :
    ok = true ∧ fs2 = fs1 := by
  have hsame : ∀ x ∈ s.flatten, includeProcessFunc E fs1 x.1 = includeProcessFunc E fs x.1 := by
    intro x hx
    obtain ⟨opts, imports, process, text, out, hperm, _, _, _, hproc, htok, hfm, hf⟩ := (generate_writes hs.1 hp h1).1 x hx
    have hhead : (tokens text).head? = some (.word (lit "package")) := by
      rw [htok]
      exact declarations_head ..
    obtain ⟨fns, hpar, hfns⟩ := hE.funcs hhead hfm
    have hdecl : lit "Process" ∈ fns ↔ process = true := by
      rw [hfns, htok, declared_funcs]
      · cases process <;> decide
      · intro o ho
        obtain ⟨o', ho', rfl⟩ := List.mem_map.1 ho
        exact (hp x hx).2.1 o' (hperm.mem_iff.1 ho')
      · intro d hd
        obtain ⟨o', ho', he⟩ := List.mem_filterMap.1 hd
        obtain ⟨d', hd', rfl⟩ := Option.map_eq_some_iff.1 he
        exact (hp x hx).2.2 o' (hperm.mem_iff.1 ho') d' hd'
    have : WantsProcess E fs1 x.1 ↔ lit "Process" ∈ fns := by
      constructor
      · exact fun hw => hw out fns hf hpar
      · intro hm src fns' e1 e2
        rw [hf] at e1
        obtain rfl := Option.some.inj e1
        rw [hpar] at e2
        obtain rfl := Option.some.inj e2
        exact hm
    rw [Bool.eq_iff_iff, include_iff, include_iff, this, hdecl, hproc]
  rcases main_spec hs.1 h1 with ⟨_, a1, b1⟩ | ⟨h, _⟩
  · rcases main_spec hs.1 h2 with ⟨rfl, a2, b2⟩ | ⟨rfl, ⟨x, hx, a2, _⟩, _⟩
    · refine ⟨rfl, funext fun p => ?_⟩
      by_cases hq : ∃ x ∈ s.flatten, p = goFile x.1
      · obtain ⟨x, hx, rfl⟩ := hq
        obtain ⟨o1, h1, e1⟩ := a1 x hx
        obtain ⟨o2, h2, e2⟩ := a2 x hx
        rw [e1, e2, outOf_unique hE (hs.2 x hx) (hsame x hx) h2 h1]
      · exact b2 p fun x hx e => hq ⟨x, hx, e⟩
    · obtain ⟨o1, h1, _⟩ := a1 x hx
      exact absurd (outOf_unique hE (hs.2 x hx) (hsame x hx) a2 h1) (by simp)
  · exact absurd h (by simp)

end Gen
end Sawmill
