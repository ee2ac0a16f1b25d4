import Verif.Props.GenDocs
/-!
# Generators: cases that meet the hypotheses

An environment that obeys the laws (with a formatter that sorts the bytes of its text and puts the functions that it declares in front of them), and a processors.yml with two processors, one of them with descriptions that look like code.
-/

namespace Sawmill
namespace Gen
open Rfc

/-- The lines up to the first empty one. -/
def headLines : Bytes → List Bytes := fun s => (splitLines s).takeWhile fun l => !l.isEmpty

def upByte (b : UInt8) : UInt8 := if 97 ≤ b ∧ b ≤ 122 then b - 32 else b
def downByte (b : UInt8) : UInt8 := if 65 ≤ b ∧ b ≤ 90 then b + 32 else b

def sampleGenEnv : GenEnv where
  lower := List.map downByte
  upper := List.map upByte
  title s := match s with | [] => [] | b :: r => upByte b :: r
  quoteBody s := s
  wrap s _ := s
  format src := some ((declaredFuncs (tokens src)).flatMap (fun f => f ++ [10]) ++ 10 :: src.mergeSort fun a b => decide (a ≤ b))
  parse out := some (headLines out)

/-! ## The laws -/

/-- A word as the scanner makes it. -/
def WordOk (w : Bytes) : Prop := w ≠ [] ∧ (10 : UInt8) ∉ w

def ModeOk : Mode → Prop
  | .word w => WordOk w
  | _ => True

theorem wordByte_ne {b : UInt8} (h : isWordByte b = true) : (10 : UInt8) ≠ b := by
  intro e
  subst e
  exact absurd h (by decide)

theorem fresh_ok (semi : Bool) (b : UInt8) : ModeOk (fresh semi b).1 ∧ ∀ w, Tok.word w ∉ (fresh semi b).2 := by
  unfold fresh
  split
  · exact ⟨trivial, by intro w; cases semi <;> simp⟩
  split
  · exact ⟨trivial, by simp⟩
  split
  · next h => exact ⟨⟨by simp, by simpa using wordByte_ne h⟩, by simp⟩
  split
  · exact ⟨trivial, by simp⟩
  split
  · exact ⟨trivial, by simp⟩
  split
  · exact ⟨trivial, by simp⟩
  · exact ⟨trivial, by simp⟩

theorem scan1_ok {m : Mode} (hm : ModeOk m) (b : UInt8) : ModeOk (scan1 m b).1 ∧ ∀ w, Tok.word w ∈ (scan1 m b).2 → WordOk w := by
  cases m with
  | gap semi => exact ⟨(fresh_ok semi b).1, fun w h => absurd h ((fresh_ok semi b).2 w)⟩
  | word w =>
    simp only [scan1]
    split
    · next h =>
      refine ⟨⟨by simp, ?_⟩, by simp⟩
      simp only [List.mem_append, List.mem_singleton, not_or]
      exact ⟨hm.2, wordByte_ne h⟩
    · refine ⟨(fresh_ok _ b).1, ?_⟩
      intro w' h
      rcases List.mem_cons.1 h with h | h
      · cases h; exact hm
      · exact absurd h ((fresh_ok _ b).2 w')
  | slash semi =>
    simp only [scan1]
    split
    · exact ⟨trivial, by simp⟩
    split
    · exact ⟨trivial, by simp⟩
    · refine ⟨(fresh_ok _ b).1, ?_⟩
      intro w' h
      rcases List.mem_cons.1 h with h | h
      · exact Tok.noConfusion h
      · exact absurd h ((fresh_ok _ b).2 w')
  | line semi =>
    simp only [scan1]
    split
    · exact ⟨(fresh_ok semi b).1, fun w h => absurd h ((fresh_ok semi b).2 w)⟩
    · exact ⟨trivial, by simp⟩
  | block semi star =>
    simp only [scan1]
    split
    · exact ⟨trivial, by simp⟩
    split
    · exact ⟨trivial, by intro w; cases semi <;> simp⟩
    · exact ⟨trivial, by simp⟩
  | str q esc body =>
    simp only [scan1]
    split
    · exact ⟨trivial, by simp⟩
    split
    · exact ⟨trivial, by simp⟩
    split
    · exact ⟨trivial, by simp⟩
    split
    · exact ⟨trivial, by simp⟩
    · exact ⟨trivial, by simp⟩
  | raw body =>
    simp only [scan1]
    split
    · exact ⟨trivial, by simp⟩
    · exact ⟨trivial, by simp⟩

theorem scan_ok {m : Mode} (hm : ModeOk m) (s : Bytes) : ModeOk (scan m s).1 ∧ ∀ w, Tok.word w ∈ (scan m s).2 → WordOk w := by
  induction s generalizing m with
  | nil => exact ⟨hm, by simp [scan]⟩
  | cons b r ih =>
    have h1 := scan1_ok hm b
    have h2 := ih h1.1
    refine ⟨h2.1, ?_⟩
    intro w hw
    rcases List.mem_append.1 hw with h | h
    · exact h1.2 w h
    · exact h2.2 w h

theorem tokens_ok (s : Bytes) (w : Bytes) (h : Tok.word w ∈ tokens s) : WordOk w := by
  have hs := scan_ok (m := .gap false) trivial s
  rcases List.mem_append.1 h with h | h
  · exact hs.2 w h
  · revert h
    have hm := hs.1
    generalize (scan (.gap false) s).1 = m at hm
    cases m <;> simp only [finish] <;> intro h
    · split at h <;> simp at h
    · rcases List.mem_cons.1 h with h | h
      · cases h; exact hm
      · split at h <;> simp at h
    · simp at h
    · split at h <;> simp at h
    · simp at h
    · simp at h
    · simp at h

theorem funcs1_mem (s : Nat × Phase) (t : Tok) : ∀ f ∈ (funcs1 s t).2, t = .word f := by
  intro f hf
  obtain ⟨d, ph⟩ := s
  cases t with
  | op b =>
    simp only [funcs1] at hf
    split at hf
    · simp at hf
    split at hf
    · simp at hf
    split at hf <;> simp at hf
  | word w =>
    cases d with
    | zero => cases ph <;> simp [funcs1] at hf; rw [hf]
    | succ d => simp [funcs1] at hf
  | str q b => cases d <;> cases ph <;> simp [funcs1] at hf
  | raw b => cases d <;> cases ph <;> simp [funcs1] at hf
  | bad => cases d <;> cases ph <;> simp [funcs1] at hf

theorem funcsFrom_mem (s : Nat × Phase) (ts : List Tok) : ∀ f ∈ (funcsFrom s ts).2, Tok.word f ∈ ts := by
  induction ts generalizing s with
  | nil => simp [funcsFrom]
  | cons t ts ih =>
    intro f hf
    rcases List.mem_append.1 hf with h | h
    · rw [funcs1_mem s t f h]; simp
    · exact List.mem_cons_of_mem _ (ih _ f h)

theorem splitLines_line {l : Bytes} (hl : (10 : UInt8) ∉ l) (r : Bytes) : splitLines (l ++ 10 :: r) = l :: splitLines r := by
  induction l with
  | nil => simp [splitLines]
  | cons b l ihl =>
    have hb : b ≠ 10 := fun e => hl (by simp [e])
    simp only [List.cons_append, splitLines, hb, if_false, ihl (fun hm => hl (by simp [hm]))]

theorem headLines_eq {fns : List Bytes} (h : ∀ f ∈ fns, WordOk f) (r : Bytes) : headLines (fns.flatMap (fun f => f ++ [10]) ++ 10 :: r) = fns := by
  unfold headLines
  induction fns with
  | nil =>
    have := splitLines_line (l := []) (by simp) r
    simp only [List.nil_append] at this
    simp [this]
  | cons f fns ih =>
    have hf := h f (by simp)
    rw [List.flatMap_cons, List.append_assoc, List.append_assoc, List.singleton_append, splitLines_line hf.2, List.takeWhile_cons, if_pos]
    · rw [ih fun g hg => h g (by simp [hg])]
    · cases f with
      | nil => exact absurd rfl hf.1
      | cons _ _ => rfl

theorem sort_perm {a b : Bytes} (h : a.Perm b) : a.mergeSort (fun a b => decide (a ≤ b)) = b.mergeSort (fun a b => decide (a ≤ b)) := by
  have tr : ∀ a b c : UInt8, decide (a ≤ b) = true → decide (b ≤ c) = true → decide (a ≤ c) = true := by
    intro a b c h1 h2
    simp only [decide_eq_true_eq] at *
    exact UInt8.le_trans h1 h2
  have tot : ∀ a b : UInt8, (decide (a ≤ b) || decide (b ≤ a)) = true := by
    intro a b
    simp only [Bool.or_eq_true, decide_eq_true_eq]
    exact UInt8.le_total a b
  refine List.Perm.eq_of_pairwise (le := fun a b => decide (a ≤ b) = true) ?_ (List.pairwise_mergeSort tr tot a) (List.pairwise_mergeSort tr tot b) (((List.mergeSort_perm a _).trans h).trans (List.mergeSort_perm b _).symm)
  intro x y _ _ h1 h2
  simp only [decide_eq_true_eq] at h1 h2
  exact UInt8.le_antisymm h1 h2

/-- What comes before the imports, what comes after them, and the imports in between. -/
theorem render_split {E : GenEnv} {name desc : Bytes} {opts : List Opt} {process : Bool} : (∀ l, render E name desc opts l process = none) ∨
    ∃ B, ∀ l, render E name desc opts l process = some ((licenseHeader ++ lit "\n\n// Code generated by processor/generate.go - DO NOT EDIT.\npackage " ++ E.lower name ++ lit "\n\nimport (\n") ++ ((l.flatMap (fun i => lit "\n    \"" ++ i ++ lit "\"") ++ lit "\n    \"") ++ B)) := by
  unfold render
  simp only
  cases renderFields E opts with
  | none => exact .inl fun _ => rfl
  | some fs =>
    cases descriptionToComment E [] desc with
    | none => exact .inl fun _ => rfl
    | some d =>
      have e1 : lit "\n    \"github.com/andrewkroh/go-sawmill/pkg/processor\"\n    \"github.com/andrewkroh/go-sawmill/pkg/processor/registry\"\n)\n\nfunc init() {\n    registry.MustRegister(processorName, New)\n}\n\nconst (\n    processorName = \"" = lit "\n    \"" ++
        lit "github.com/andrewkroh/go-sawmill/pkg/processor\"\n    \"github.com/andrewkroh/go-sawmill/pkg/processor/registry\"\n)\n\nfunc init() {\n    registry.MustRegister(processorName, New)\n}\n\nconst (\n    processorName = \"" := by decide +kernel
      rw [e1]
      refine .inr ⟨?_, fun l => ?_⟩
      rotate_left
      · simp only [List.append_assoc]
        rfl

theorem sampleGenEnv_lawful : sampleGenEnv.Lawful where
  imports := by
    intro name desc opts l1 l2 process t1 t2 hid hp hq h1 h2
    rcases render_split (E := sampleGenEnv) (name := name) (desc := desc) (opts := opts) (process := process) with hnone | ⟨B, hB⟩
    · rw [hnone] at h1; exact absurd h1 (by simp)
    · have hq2 : ∀ i ∈ l2, Quotable i := fun i hi => hq i (hp.mem_iff.2 hi)
      rw [hB, Option.some.injEq] at h1 h2
      have a : ∃ A R, ∀ l' : List Bytes, (∀ i ∈ l', Quotable i) → Declares (0, .start) A (1, .mid) [] ∧ tokens ((licenseHeader ++ lit "\n\n// Code generated by processor/generate.go - DO NOT EDIT.\npackage " ++ sampleGenEnv.lower name ++ lit "\n\nimport (\n") ++ ((l'.flatMap (fun i => lit "\n    \"" ++ i ++ lit "\"") ++ lit "\n    \"") ++ B)) =
          A ++ (l'.flatMap (fun i => quoted i ++ code (lit ";")) ++ R) := by
        refine ⟨code (lit "package") ++ [.word (sampleGenEnv.lower name)] ++ code (lit ";") ++ code (lit "import ("), (scan (.str 34 false []) B).2 ++ finish (scan (.str 34 false []) B).1, fun l' hl' => ⟨?_, ?_⟩⟩
        · have a1 : Declares (0, .start) (code (lit "package")) (0, .mid) [] := by decide +kernel
          have a2 : Declares (0, .mid) [.word (sampleGenEnv.lower name)] (0, .mid) [] := rfl
          have a3 : Declares (0, .mid) (code (lit ";")) (0, .start) [] := by decide +kernel
          have a4 : Declares (0, .start) (code (lit "import (")) (1, .mid) [] := by decide +kernel
          exact ((a1.append a2).append a3).append a4
        · have r := ((reads_license.append reads_c1).append (reads_ident hid false)).append (reads_apart hid reads_c2)
          have r := r.append ((reads_imports hl').append (show Reads (.str 34 false []) B (scan (.str 34 false []) B).1 (scan (.str 34 false []) B).2 from rfl))
          unfold tokens
          rw [r]
          simp only [List.append_assoc, List.nil_append, List.cons_append]
      obtain ⟨A, R, hA⟩ := a
      have hf : ∀ l' : List Bytes, (∀ i ∈ l', Quotable i) → declaredFuncs (A ++ (l'.flatMap (fun i => quoted i ++ code (lit ";")) ++ R)) = (funcsFrom (1, .mid) R).2 := by
        intro l' hl'
        have d1 := (hA l' hl').1
        have d2 : Declares (1, .mid) (l'.flatMap fun i => quoted i ++ code (lit ";")) (1, .mid) [] := Declares.flatMap fun i _ => rfl
        unfold declaredFuncs
        rw [funcsFrom_append, funcsFrom_append, d1, d2]
        rfl
      have e : declaredFuncs (tokens t1) = declaredFuncs (tokens t2) := by
        rw [← h1, ← h2, (hA l1 hq).2, (hA l2 hq2).2, hf l1 hq, hf l2 hq2]
      have es : t1.mergeSort (fun a b => decide (a ≤ b)) = t2.mergeSort (fun a b => decide (a ≤ b)) := by
        refine sort_perm ?_
        rw [← h1, ← h2]
        exact ((((hp.flatMap_right _).append_right _).append_right _).append_left _)
      show some _ = some _
      rw [e, es]
  funcs := by
    intro src out _ h
    refine ⟨_, rfl, fun f => ?_⟩
    have h' : some ((declaredFuncs (tokens src)).flatMap (fun f => f ++ [10]) ++ 10 :: src.mergeSort fun a b => decide (a ≤ b)) = some out := h
    rw [← Option.some.inj h', headLines_eq]
    intro f hf
    exact tokens_ok src f (funcsFrom_mem _ _ f hf)

/-! ## Two processors -/

/-- An option whose description tries to be code. -/
def evilOpt : Opt := { name := lit "value", type := lit "github.com/andrewkroh/go-sawmill/pkg/config.EventValue", optional := true, description := lit "\nThe value. \nimport \"os\"\n*/ }\n" }

def setOpts : List Opt := [evilOpt, { name := lit "ignore_failure", type := lit "bool", default := some (.other (lit "false") false) }, { name := lit "source.ip", type := lit "string", required := true, default := some (.str (lit "a b")) }]

def sampleSchema : Schema := [[(lit "set", { description := lit "Sets.\nfunc (p *Set) Process() {}", configuration := setOpts })], [(lit "drop_id", { description := lit "Drops." })]]

/-- The tokens of a text that ends in a word or behind a token. -/
def pieceToks (s : Bytes) : List Tok :=
  match scan (.gap false) s with
  | (.word w, ts) => ts ++ [.word w]
  | (_, ts) => ts

def sampleTy (o : Opt) : List Tok := pieceToks (trimImportPrefix o.type)
def sampleDf (d : Dflt) : List Tok := pieceToks (quoteStrings sampleGenEnv d)

theorem piece_of {s : Bytes} (h : ∀ semi, (scan (.gap semi) s = (.gap true, pieceToks s)) ∨ (endsStmt (s.reverse.takeWhile isWordByte).reverse = true ∧ scan (.gap semi) s = (.word (s.reverse.takeWhile isWordByte).reverse, (pieceToks s).dropLast) ∧
    pieceToks s = (pieceToks s).dropLast ++ [.word (s.reverse.takeWhile isWordByte).reverse])) : Piece s (pieceToks s) := by
  intro semi
  rcases h semi with h | ⟨h1, h2, h3⟩
  · exact .inl h
  · exact .inr ⟨_, _, h1, h2, h3⟩

instance (w : Bytes) : Decidable (Ident w) := by unfold Ident; infer_instance
instance (w : Bytes) : Decidable (Quotable w) := by unfold Quotable; infer_instance

theorem matched_words (ts : List Tok) (h : ∀ t ∈ ts, ∀ b, t ≠ .op b) : Matched ts := by
  intro d ph
  induction ts with
  | nil => rfl
  | cons t ts ih =>
    have h1 : funcs1 (d + 1, ph) t = ((d + 1, ph), []) := by
      cases t with
      | op b => exact absurd rfl (h (.op b) (by simp) b)
      | word w => rfl
      | str q b => rfl
      | raw b => rfl
      | bad => rfl
    simp only [funcsFrom, h1, ih fun t ht => h t (by simp [ht])]
    rfl

theorem sample_presentable : sampleSchema.Presentable sampleGenEnv sampleTy sampleDf := by
  intro x hx
  simp only [sampleSchema, List.flatten_cons, List.flatten_nil, List.append_nil, List.singleton_append, List.mem_cons, List.not_mem_nil, or_false] at hx
  rcases hx with rfl | rfl
  · refine ⟨⟨by decide +kernel, by decide +kernel, by decide +kernel, by decide +kernel, by decide +kernel, ?_, ?_, ?_, ?_⟩, ?_, ?_⟩
    · intro o ho t ht
      rw [← trim_afterLast ht]; clear ht
      refine piece_of ?_
      revert o
      decide +kernel
    · intro o ho t b hd
      simp only [setOpts, evilOpt, List.mem_cons, List.not_mem_nil, or_false] at ho
      rcases ho with rfl | rfl | rfl <;> simp only [Option.some.injEq, reduceCtorEq] at hd
      simp only [Dflt.other.injEq] at hd
      obtain ⟨rfl, rfl⟩ := hd
      refine piece_of (s := lit "false") ?_
      decide +kernel
    · intro o ho s hd
      simp only [setOpts, evilOpt, List.mem_cons, List.not_mem_nil, or_false] at ho
      rcases ho with rfl | rfl | rfl <;> simp only [Option.some.injEq, reduceCtorEq] at hd
      simp only [Dflt.str.injEq] at hd
      subst hd
      exact ⟨.plain (by decide) (by decide) (by decide) (.plain (by decide) (by decide) (by decide) (.plain (by decide) (by decide) (by decide) .nil)), by decide +kernel⟩
    · intro o ho i hi
      replace hi := (needs_iff o i).2 hi
      have : ∀ o ∈ setOpts, ∀ j ∈ (importOf o).toList, Quotable j := by decide +kernel
      exact this o ho i (by rw [hi]; simp)
    · intro o ho
      simp only [setOpts, evilOpt, List.mem_cons, List.not_mem_nil, or_false] at ho
      rcases ho with rfl | rfl | rfl
      · have e : sampleTy evilOpt = [.word (lit "config"), .op 46, .word (lit "EventValue")] := by decide +kernel
        show Matched (sampleTy evilOpt)
        rw [e]
        intro d ph
        rfl
      · exact fun d ph => rfl
      · exact fun d ph => rfl
    · intro o ho d hd
      simp only [setOpts, evilOpt, List.mem_cons, List.not_mem_nil, or_false] at ho
      rcases ho with rfl | rfl | rfl <;> simp only [Option.some.injEq, reduceCtorEq] at hd <;> subst hd <;> exact fun d ph => rfl
  · refine ⟨⟨by decide +kernel, by decide +kernel, by decide +kernel, ?_, ?_, ?_, ?_, ?_, ?_⟩, ?_, ?_⟩ <;> intro o ho <;> simp at ho

theorem sample_ok : sampleSchema.Ok sampleGenEnv := by
  refine ⟨by decide +kernel, fun x hx => ⟨(sample_presentable x hx).1.pkg, ?_, (sample_presentable x hx).1.imports⟩⟩
  have : ∀ x ∈ sampleSchema.flatten, (x.2.configuration.map (·.name)).Nodup := by decide +kernel
  exact this x hx

/-- The options in the order of their names. -/
def sortedOpts : List Opt := [{ name := lit "ignore_failure", type := lit "bool", default := some (.other (lit "false") false) }, { name := lit "source.ip", type := lit "string", required := true, default := some (.str (lit "a b")) }, evilOpt]

theorem sampleSorted : SortedByName setOpts sortedOpts := by
  refine ⟨?_, by decide +kernel⟩
  have e : setOpts = [evilOpt] ++ (sortedOpts.take 2) := by decide +kernel
  have e2 : sortedOpts = (sortedOpts.take 2) ++ [evilOpt] := by decide +kernel
  rw [e, e2]
  exact List.perm_append_comm

theorem sampleImports : ConfigTypeImports sortedOpts [lit "github.com/andrewkroh/go-sawmill/pkg/config"] := by
  refine ⟨by simp, fun i => ?_⟩
  have e : sortedOpts.filterMap importOf = [lit "github.com/andrewkroh/go-sawmill/pkg/config"] := by decide +kernel
  rw [e]

/-- Old files: `set.go` without `Process`, and nothing else. -/
def sampleFiles : Files := fun p => if p = pathOf (lit "set") then some (lit "New\n\n") else none

example : ¬ WantsProcess sampleGenEnv sampleFiles (lit "set") ∧ WantsProcess sampleGenEnv sampleFiles (lit "drop_id") := by
  constructor
  · intro h
    have := h (lit "New\n\n") [lit "New"] rfl (by decide +kernel)
    revert this
    decide
  · intro src fns h
    have : sampleFiles (goFile (lit "drop_id")) = none := by decide +kernel
    rw [this] at h
    exact absurd h (by simp)

/-- A run that comes to its end. -/
theorem sample_run : ∃ fs', Main sampleGenEnv sampleFiles sampleSchema fs' true := by
  have ho : Order sampleSchema sampleSchema.flatten := .cons (.refl _) (.cons (.refl _) .nil)
  have r1 : (render sampleGenEnv (lit "set") (lit "Sets.\nfunc (p *Set) Process() {}") sortedOpts [lit "github.com/andrewkroh/go-sawmill/pkg/config"] (includeProcessFunc sampleGenEnv sampleFiles (lit "set"))).isSome = true := by decide +kernel
  obtain ⟨t1, h1⟩ := Option.isSome_iff_exists.1 r1
  have v1 := Visit.mk (E := sampleGenEnv) (fs := sampleFiles) (name := lit "set") (p := { description := lit "Sets.\nfunc (p *Set) Process() {}", configuration := setOpts }) sampleSorted sampleImports
  have o1 : output sampleGenEnv sampleFiles (lit "set") (lit "Sets.\nfunc (p *Set) Process() {}") sortedOpts [lit "github.com/andrewkroh/go-sawmill/pkg/config"] = sampleGenEnv.format t1 := by
    rw [output, h1]
    rfl
  obtain ⟨out1, e1⟩ : ∃ o, sampleGenEnv.format t1 = some o := ⟨_, rfl⟩
  rw [o1, e1, Option.map_some] at v1
  generalize Files.write sampleFiles (pathOf (lit "set")) out1 = fs1 at v1
  have r2 : ∀ b, (render sampleGenEnv (lit "drop_id") (lit "Drops.") [] [] b).isSome = true := by decide +kernel
  obtain ⟨t2, h2⟩ := Option.isSome_iff_exists.1 (r2 (includeProcessFunc sampleGenEnv fs1 (lit "drop_id")))
  have v2 := Visit.mk (E := sampleGenEnv) (fs := fs1) (name := lit "drop_id") (p := { description := lit "Drops." }) (opts := []) (imports := []) ⟨.refl _, .nil⟩ ⟨by simp, by simp⟩
  have o2 : output sampleGenEnv fs1 (lit "drop_id") (lit "Drops.") [] [] = sampleGenEnv.format t2 := by
    rw [output, h2]
    rfl
  obtain ⟨out2, e2⟩ : ∃ o, sampleGenEnv.format t2 = some o := ⟨_, rfl⟩
  rw [o2, e2, Option.map_some] at v2
  exact ⟨_, _, ho, .step v1 (.step v2 .done)⟩

/-- The comment of the option whose description tries to be code. -/
example : descriptionToComment sampleGenEnv [9] evilOpt.description = some (lit "The value.\n\t// import \"os\"\n\t// */ }") := by decide +kernel

example : goTypeName sampleGenEnv (lit "source.ip") = lit "SourceIP" ∧ goTypeName sampleGenEnv (lit "source_ip") = lit "SourceIP" ∧ goTypeName sampleGenEnv (lit "@drop_id") = lit "DropID" := by decide +kernel

/-- Documentation: a map of two processors can give two texts; a `false` default does not show; a bar in a description makes a row of seven cells. -/
example : Docs [] [[(lit "a", {}), (lit "b", {})]] (docsText [] [(lit "a", {})]) ∧ Docs [] [[(lit "a", {}), (lit "b", {})]] (docsText [] [(lit "b", {})]) := by
  refine ⟨⟨_, _, .pick (name := lit "a") (p := {}) (shown := []) (by simp) ⟨[], ⟨.refl _, .nil⟩, rfl⟩ .nil, .refl _, ?_, rfl⟩, ⟨_, _, .pick (name := lit "b") (p := {}) (shown := []) (by simp) ⟨[], ⟨.refl _, .nil⟩, rfl⟩ .nil, .refl _, ?_, rfl⟩⟩ <;> simp

example : docsRow { name := lit "x", type := lit "bool", default := some (.other (lit "false") false), description := lit "a|b\nc" } = lit "| x |  |  | bool |  | a|b c |\n" := by decide +kernel

theorem sample_docs : ∃ text, Docs (lit "intro\n") sampleSchema text := by
  refine ⟨_, _, _, .pick (List.mem_singleton.2 rfl) ⟨sortedOpts, sampleSorted, rfl⟩ (.pick (List.mem_singleton.2 rfl) ⟨[], ⟨.refl _, .nil⟩, rfl⟩ .nil), List.Perm.swap .., ?_, rfl⟩
  simp only [List.pairwise_cons, List.mem_singleton, forall_eq, List.not_mem_nil, false_implies, implies_true, List.Pairwise.nil, and_true]
  decide +kernel

end Gen
end Sawmill
