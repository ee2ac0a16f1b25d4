import Verif.Lemmas.GenScan
/-!
# Generated code

The comment of an option or a processor has exactly the lines of the wrapped description, and nothing of a description is ever read as code: the tokens of a generated file are those of the declarations, whatever the descriptions are.
-/

namespace Sawmill
namespace Gen
open Rfc

/-! ## Comments -/

theorem prefixed_noNl {pre : Bytes} (hp : (10 : UInt8) ∉ pre) {ls : List Bytes} (h : ∀ l ∈ ls, (10 : UInt8) ∉ l) : ∀ l ∈ prefixed pre ls, (10 : UInt8) ∉ l := by
  cases ls with
  | nil => simp [prefixed]
  | cons x xs =>
    intro l hl
    simp only [prefixed, List.mem_cons, List.mem_map] at hl
    rcases hl with rfl | ⟨y, hy, rfl⟩
    · exact h l (by simp)
    · simp only [List.mem_append, not_or]
      exact ⟨hp, h y (by simp [hy])⟩

theorem prefixed_last {pre : Bytes} (hp : pre ≠ []) {ls xs : List Bytes} (h : prefixed pre ls = xs ++ [[]]) : xs = [] := by
  cases ls with
  | nil => cases xs <;> simp [prefixed] at h
  | cons l ls =>
    cases xs with
    | nil => rfl
    | cons x xs =>
      simp only [prefixed, List.cons_append, List.cons.injEq] at h
      have : [] ∈ ls.map (pre ++ ·) := by rw [h.2]; simp
      obtain ⟨y, _, hy⟩ := List.mem_map.1 this
      exact absurd (List.append_eq_nil_iff.1 hy).1 hp

/-- How wide the text of a comment may be: 80 columns, of which the indent takes one per byte and four for each of the first four tabs, and a blank and the comment marker with its blank take four. -/
def commentWidth (indent : Bytes) : Nat := 80 - (indent.length + 3 * min 4 (indent.count 9) + 4)

theorem replaceTabs_length (n : Nat) (s : Bytes) : (replaceTabs n s).length = s.length + 3 * min n (s.count 9) := by
  induction s generalizing n with
  | nil => simp [replaceTabs]
  | cons b s ih =>
    unfold replaceTabs
    by_cases hb : b = 9
    · subst hb
      rw [if_pos rfl, List.count_cons_self]
      cases n with
      | zero => simp
      | succ n =>
        simp only [List.length_append, List.length_cons, ih]
        have : (lit "    ").length = 4 := by decide
        omega
    · rw [if_neg hb, List.count_cons_of_ne (by simpa using hb)]
      simp only [List.length_cons, ih]
      omega

theorem comment_width (indent : Bytes) : 80 - (replaceTabs 4 indent ++ lit " // ").length = commentWidth indent := by
  have : (lit " // ").length = 4 := by decide
  rw [List.length_append, replaceTabs_length, this]
  rfl

/-- The two indents in use. -/
example : commentWidth [] = 76 ∧ commentWidth [9] = 72 := ⟨rfl, rfl⟩

/-- The comment of a description: the lines of the wrapped text, without a blank first and a blank last line, each but the first behind the indent and `// `, and all without white space at their ends. -/
theorem comment_lines {E : GenEnv} {indent desc c : Bytes} (hi : (10 : UInt8) ∉ indent) (h : descriptionToComment E indent desc = some c) :
    ∃ ls kept rs, E.wrap desc (commentWidth indent) = join [10] ls ∧ ls ≠ [] ∧ (∀ l ∈ ls, (10 : UInt8) ∉ l) ∧ Kept ls kept ∧ Rel2 RightTrimmed (prefixed (indent ++ lit "// ") kept) rs ∧ c = join [10] rs := by
  have hs := splitLines_spec (E.wrap desc (commentWidth indent))
  have hk := kept_drop (splitLines (E.wrap desc (commentWidth indent)))
  have hpre : (10 : UInt8) ∉ indent ++ lit "// " := by
    simp only [List.mem_append, not_or]
    exact ⟨hi, by decide⟩
  have hn := prefixed_noNl hpre fun l hl => hs.2 l (kept_mem hk hl)
  unfold descriptionToComment at h
  simp only [comment_width] at h
  rw [List.cons_append, join_pre] at h
  by_cases hlen : ∀ l ∈ prefixed (indent ++ lit "// ") (dropLast (dropFirst (splitLines (E.wrap desc (commentWidth indent))))), l.length < 65536
  · obtain ⟨rs, hr, ht⟩ := trim_lines hn hlen (fun xs => prefixed_last (by simp [lit]))
    replace h : _ = some c := h
    refine ⟨_, _, rs, hs.1, splitLines_ne _, hs.2, hk, hr, ?_⟩
    exact (Option.some.inj (ht.symm.trans h)).symm
  · exfalso
    obtain ⟨l, hl⟩ := Classical.not_forall.1 hlen
    obtain ⟨hl, hge⟩ := Classical.not_imp.1 hl
    exact absurd (h.symm.trans (trim_fails hn hl (by omega))) (by simp)

/-- It is an error exactly if one of these lines is 65536 bytes long or longer. -/
theorem comment_fails_iff {E : GenEnv} {indent desc : Bytes} (hi : (10 : UInt8) ∉ indent) {ls kept : List Bytes} (hw : E.wrap desc (commentWidth indent) = join [10] ls) (hne : ls ≠ []) (hn : ∀ l ∈ ls, (10 : UInt8) ∉ l) (hk : Kept ls kept) :
    descriptionToComment E indent desc = none ↔ ∃ l ∈ prefixed (indent ++ lit "// ") kept, 65536 ≤ l.length := by
  have hls : ls = splitLines (E.wrap desc (commentWidth indent)) := by
    rw [hw]
    clear hw hk
    induction ls with
    | nil => exact absurd rfl hne
    | cons l ls ih =>
      have one : ∀ (l r : Bytes), (10 : UInt8) ∉ l → splitLines (l ++ 10 :: r) = l :: splitLines r := by
        intro l r hl
        induction l with
        | nil => simp [splitLines]
        | cons b l ihl =>
          have hb : b ≠ 10 := fun e => hl (by simp [e])
          simp only [List.cons_append, splitLines, hb, if_false, ihl (fun hm => hl (by simp [hm]))]
      have lone : ∀ (l : Bytes), (10 : UInt8) ∉ l → splitLines l = [l] := by
        intro l hl
        induction l with
        | nil => rfl
        | cons b l ihl =>
          have hb : b ≠ 10 := fun e => hl (by simp [e])
          simp only [splitLines, hb, if_false, ihl (fun hm => hl (by simp [hm]))]
      cases ls with
      | nil => exact (lone l (hn l (by simp))).symm
      | cons l2 ls =>
        have : join [10] (l :: l2 :: ls) = l ++ 10 :: join [10] (l2 :: ls) := by simp [join]
        rw [this, one _ _ (hn l (by simp)), ← ih (by simp) (fun x hx => hn x (by simp [hx]))]
  have hkept : kept = dropLast (dropFirst ls) := by
    obtain ⟨mid, h1, h2⟩ := hk
    have e1 : dropFirst ls = mid := by
      rcases h1 with ⟨l, hb, rfl⟩ | ⟨rfl, hnb⟩
      · simp [dropFirst, (trimSpace_nil_iff l).2 hb]
      · cases mid with
        | nil => rfl
        | cons l mid =>
          have : trimSpace l ≠ [] := fun e => hnb l rfl ((trimSpace_nil_iff l).1 e)
          simp [dropFirst, this]
    rw [e1]
    unfold dropLast
    rcases h2 with ⟨l, hb, rfl⟩ | ⟨rfl, hnb⟩
    · simp [(trimSpace_nil_iff l).2 hb]
    · cases hg : kept.getLast? with
      | none => rfl
      | some l =>
        have : trimSpace l ≠ [] := fun e => hnb l hg ((trimSpace_nil_iff l).1 e)
        simp [this]
  have hpre : (10 : UInt8) ∉ indent ++ lit "// " := by
    simp only [List.mem_append, not_or]
    exact ⟨hi, by decide⟩
  have hnp := prefixed_noNl hpre fun l hl => hn l (kept_mem hk hl)
  have hd : descriptionToComment E indent desc = trimTrailingWhitespace (join [10] (prefixed (indent ++ lit "// ") kept)) := by
    unfold descriptionToComment
    simp only [comment_width]
    rw [List.cons_append, join_pre, hkept, hls]
  rw [hd]
  constructor
  · intro h
    refine Classical.byContradiction fun hc => ?_
    obtain ⟨rs, _, ht⟩ := trim_lines hnp (fun l hl => Nat.lt_of_not_le fun hge => hc ⟨l, hl, hge⟩) (fun xs => prefixed_last (by simp [lit]))
    rw [h] at ht
    exact absurd ht (by simp)
  · rintro ⟨l, hl, hge⟩
    exact trim_fails hnp hl hge

/-- Read as code, a comment is nothing: from behind the `// ` on its first line, the scanner is still in a comment at its end, and has read no token. -/
theorem comment_reads {E : GenEnv} {indent desc c : Bytes} (hi : ∀ b ∈ indent, b = 32 ∨ b = 9) (h : descriptionToComment E indent desc = some c) : Reads (.line false) c (.line false) [] := by
  have hi10 : (10 : UInt8) ∉ indent := by
    intro hm
    rcases hi 10 hm with h | h <;> exact absurd h (by decide)
  obtain ⟨ls, kept, rs, _, _, hn, hk, hr, rfl⟩ := comment_lines hi10 h
  have hkn : ∀ l ∈ kept, (10 : UInt8) ∉ l := fun l hl => hn l (kept_mem hk hl)
  cases kept with
  | nil => cases hr; exact Reads.nil _
  | cons l kept =>
    cases hr
    rename_i r rs h1 h2
    exact reads_more hi h2 (fun x hx => hkn x (by simp [hx])) (trimmed_noNl h1 (hkn l (by simp)))

/-! ## Code -/

theorem cutLast_none {c : UInt8} : ∀ {s : Bytes}, cutLast c s = none ↔ c ∉ s
  | [] => by simp [cutLast]
  | b :: r => by
    simp only [cutLast]
    cases h : cutLast c r with
    | none =>
      have := cutLast_none.1 h
      simp only
      split
      · next e => subst e; simp
      · next e =>
        simp only [List.mem_cons, not_or, true_iff]
        exact ⟨fun e' => e e'.symm, this⟩
    | some x =>
      have : c ∈ r := Classical.byContradiction fun hn => by rw [cutLast_none.2 hn] at h; exact absurd h (by simp)
      simp [this]

theorem cutLast_eq {c : UInt8} {a b : Bytes} (h : c ∉ b) : cutLast c (a ++ c :: b) = some (a, b) := by
  induction a with
  | nil => simp [cutLast, cutLast_none.2 h]
  | cons x a ih => simp [cutLast, ih]

/-- `strings.LastIndex` and the cut there: around the last `c`. -/
theorem cutLast_spec (c : UInt8) (s : Bytes) : (∀ a b, cutLast c s = some (a, b) → s = a ++ c :: b ∧ c ∉ b) ∧ (cutLast c s = none ↔ c ∉ s) := by
  refine ⟨?_, cutLast_none⟩
  induction s with
  | nil => simp [cutLast]
  | cons x r ih =>
    intro a b h
    simp only [cutLast] at h
    cases hr : cutLast c r with
    | none =>
      rw [hr] at h
      simp only at h
      split at h
      · next e =>
        simp only [Option.some.injEq, Prod.mk.injEq] at h
        obtain ⟨rfl, rfl⟩ := h
        exact ⟨by simp [e], cutLast_none.1 hr⟩
      · exact absurd h (by simp)
    | some y =>
      rw [hr] at h
      simp only [Option.some.injEq, Prod.mk.injEq] at h
      obtain ⟨rfl, rfl⟩ := h
      obtain ⟨e, hn⟩ := ih y.1 y.2 hr
      exact ⟨by rw [e]; simp, hn⟩


theorem afterLast_trim (t : Bytes) : AfterLast 47 t (trimImportPrefix t) := by
  unfold trimImportPrefix
  cases h : cutLast 47 t with
  | none => exact .inl ⟨cutLast_none.1 h, rfl⟩
  | some x =>
    obtain ⟨a, y⟩ := x
    obtain ⟨e, hn⟩ := (cutLast_spec 47 t).1 a y h
    exact .inr ⟨a, e, hn⟩

theorem trim_afterLast {s t : Bytes} (h : AfterLast 47 s t) : trimImportPrefix s = t := by
  unfold trimImportPrefix
  rcases h with ⟨h, rfl⟩ | ⟨a, rfl, h⟩
  · rw [cutLast_none.2 h]
  · rw [cutLast_eq h]

theorem needs_iff (o : Opt) (i : Bytes) : importOf o = some i ↔ Needs o i := by
  unfold importOf Needs
  constructor
  · intro he
    obtain ⟨⟨a, b⟩, hc, rfl⟩ := Option.map_eq_some_iff.1 he
    obtain ⟨e, hnb⟩ := (cutLast_spec 46 o.type).1 a b hc
    exact ⟨b, e, hnb⟩
  · rintro ⟨t, e, hnt⟩
    rw [e, cutLast_eq hnt]
    rfl

theorem reads_escaped {s : Bytes} (h : Escaped s) : ∀ acc, Reads (.str 34 false acc) s (.str 34 false (acc ++ s)) [] := by
  unfold Reads
  induction h with
  | nil => intro acc; simp [scan]
  | @plain b s h1 h2 h3 _ ih =>
    intro acc
    simp only [scan, scan1, h1, h2, h3, if_false, Bool.false_eq_true]
    rw [ih]
    simp
  | @esc b s h1 _ ih =>
    intro acc
    have e1 : scan1 (.str 34 false acc) 92 = (.str 34 true (acc ++ [92]), []) := rfl
    have e2 : scan1 (.str 34 true (acc ++ [92])) b = (.str 34 false (acc ++ [92] ++ [b]), []) := by simp [scan1, h1]
    simp only [scan, e1, e2, ih]
    simp

theorem piece_quoted {s : Bytes} (h : Escaped s) : Piece (34 :: s ++ [34]) (quoted s) := by
  intro semi
  left
  have r1 : Reads (.gap semi) [34] (.str 34 false []) [] := by cases semi <;> rfl
  have r2 := reads_escaped h []
  have r3 : Reads (.str 34 false ([] ++ s)) [34] (.gap true) [.str 34 s] := rfl
  exact (r1.append r2).append r3

theorem Presentable.types {E : GenEnv} {name : Bytes} {opts : List Opt} {ty : Opt → List Tok} {df : Dflt → List Tok} (h : Presentable E name opts ty df) : ∀ o ∈ opts, Piece (trimImportPrefix o.type) (ty o) :=
  fun o ho => h.fieldType o ho _ (afterLast_trim o.type)

theorem Presentable.defaults {E : GenEnv} {name : Bytes} {opts : List Opt} {ty : Opt → List Tok} {df : Dflt → List Tok} (h : Presentable E name opts ty df) : ∀ o ∈ opts, ∀ d, o.default = some d → Piece (quoteStrings E d) (df d) := by
  intro o ho d hd
  cases d with
  | other t b => exact h.default o ho t b hd
  | str s =>
    obtain ⟨h1, h2⟩ := h.strDefault o ho s hd
    rw [h2]
    exact piece_quoted h1

theorem reads_field {E : GenEnv} {o : Opt} {ts : List Tok} (hf : Ident (goTypeName E o.name)) (ht : (96 : UInt8) ∉ o.name) (hp : Piece (trimImportPrefix o.type) ts) {t : Bytes} (h : renderField E o = some t) :
    Reads (.gap false) t (.gap false) (.word (goTypeName E o.name) :: ts ++ [.raw (tagOf o)] ++ code (lit ";")) := by
  unfold renderField at h
  cases hc : descriptionToComment E [9] o.description with
  | none => rw [hc] at h; exact absurd h (by simp)
  | some c =>
    rw [hc] at h
    simp only [Option.map_some, Option.some.injEq] at h
    subst h
    have h1 : Reads (.gap false) (lit "\n    // ") (.line false) [] := by decide +kernel
    have h2 := comment_reads (by decide) hc
    have h3 : Reads (.line false) (lit "\n    ") (.gap false) [] := by decide +kernel
    have h4 := reads_ident hf false
    have h5 : Reads (.word (goTypeName E o.name)) (lit " ") (.gap true) [.word (goTypeName E o.name)] := reads_afterId hf (b := 32) (r := []) (ts := []) rfl
    have h6 : Reads (.gap true) (lit " `config:\"") (.raw (lit "config:\"")) [] := by decide +kernel
    have hr : (96 : UInt8) ∉ o.name ++ lit "\"" ++ (if o.required then lit " validate:\"required\"" else []) := by
      simp only [List.mem_append, not_or]
      refine ⟨⟨ht, by decide⟩, ?_⟩
      cases o.required <;> decide
    have h7 := reads_raw (lit "config:\"") hr
    have h8 : ∀ b, Reads (.raw b) (lit "`\n") (.gap false) [.raw b, .op 59] := fun _ => rfl
    have h9 : Reads (.gap true) (trimImportPrefix o.type ++ (lit " `config:\"" ++ (o.name ++ lit "\"" ++ (if o.required then lit " validate:\"required\"" else [])) ++ lit "`\n")) (.gap false)
      (ts ++ [.raw (lit "config:\"" ++ (o.name ++ lit "\"" ++ (if o.required then lit " validate:\"required\"" else []))), .op 59]) := reads_piece hp true ((h6.append h7).append (h8 _))
    have := ((((h1.append h2).append h3).append h4).append h5).append h9
    have e : tagOf o = lit "config:\"" ++ (o.name ++ lit "\"" ++ (if o.required then lit " validate:\"required\"" else [])) := by simp [tagOf]
    rw [e]
    simp only [List.append_assoc] at this ⊢
    exact this.of_eq rfl

theorem reads_fields {E : GenEnv} {ty : Opt → List Tok} : ∀ {opts : List Opt} {t : Bytes}, (∀ o ∈ opts, Ident (goTypeName E o.name)) → (∀ o ∈ opts, (96 : UInt8) ∉ o.name) → (∀ o ∈ opts, Piece (trimImportPrefix o.type) (ty o)) → renderFields E opts = some t →
    Reads (.gap false) t (.gap false) ((opts.map fun o => (goTypeName E o.name, ty o, o)).flatMap fun o => .word o.1 :: o.2.1 ++ [.raw (tagOf o.2.2)] ++ code (lit ";"))
  | [], t, _, _, _, h => by
    simp only [renderFields, Option.some.injEq] at h
    subst h
    exact Reads.nil _
  | o :: opts, t, h1, h2, h3, h => by
    simp only [renderFields] at h
    cases hf : renderField E o with
    | none => rw [hf] at h; exact absurd h (by simp)
    | some f =>
      rw [hf] at h
      cases hr : renderFields E opts with
      | none => rw [hr] at h; exact absurd h (by simp)
      | some r =>
        rw [hr] at h
        simp only [Option.map_some, Option.some.injEq] at h
        subst h
        exact (reads_field (h1 o (by simp)) (h2 o (by simp)) (h3 o (by simp)) hf).append
          (reads_fields (fun x hx => h1 x (by simp [hx])) (fun x hx => h2 x (by simp [hx])) (fun x hx => h3 x (by simp [hx])) hr)

/-- The defaults that an option list declares. -/
def defaultsOf (E : GenEnv) (df : Dflt → List Tok) (opts : List Opt) : List (Bytes × List Tok) := opts.filterMap fun o => o.default.map fun d => (goTypeName E o.name, df d)

theorem reads_defaults {E : GenEnv} {df : Dflt → List Tok} : ∀ {opts : List Opt}, (∀ o ∈ opts, Ident (goTypeName E o.name)) → (∀ o ∈ opts, ∀ d, o.default = some d → Piece (quoteStrings E d) (df d)) →
    Reads (.gap false) ((selectDefaults opts).flatMap (fun x => lit "\n    c." ++ goTypeName E x.1.name ++ lit " = " ++ quoteStrings E x.2) ++ lit "\n}") (.gap true)
      ((defaultsOf E df opts).flatMap (fun d => code (lit "c .") ++ [.word d.1] ++ code (lit "=") ++ d.2 ++ code (lit ";")) ++ [.op 125])
  | [], _, _ => by
    show Reads (.gap false) (lit "\n}") (.gap true) [.op 125]
    decide
  | o :: opts, h1, h2 => by
    have ih := reads_defaults (df := df) (opts := opts) (fun x hx => h1 x (by simp [hx])) (fun x hx => h2 x (by simp [hx]))
    cases hd : o.default with
    | none =>
      simp only [selectDefaults, hd, defaultsOf, List.filterMap_cons, Option.map_none]
      exact ih
    | some d =>
      simp only [selectDefaults, hd, defaultsOf, List.filterMap_cons, Option.map_some, List.flatMap_cons]
      have hi := h1 o (by simp)
      have hp := h2 o (by simp) d hd
      have r1 : Reads (.gap false) (lit "\n    c.") (.gap false) (code (lit "c .")) := by decide +kernel
      have r2 := reads_ident hi false
      have r3 : Reads (.word (goTypeName E o.name)) (lit " = ") (.gap false) [.word (goTypeName E o.name), .op 61] := reads_afterId hi (b := 32) (r := [61, 32]) (ts := [.op 61]) rfl
      have semi : ∀ {s : Bytes} {m : Mode} {ts : List Tok}, Reads (.gap false) s m ts → (∃ r, s = 10 :: r) → Reads (.gap true) s m (.op 59 :: ts) := by
        rintro s m ts h ⟨r, rfl⟩
        have e1 : scan1 (.gap false) 10 = (.gap false, []) := rfl
        have e2 : scan1 (.gap true) 10 = (.gap false, [.op 59]) := rfl
        unfold Reads at *
        simp only [scan, e1, e2, List.nil_append] at h ⊢
        rw [Prod.mk.injEq] at h ⊢
        exact ⟨h.1, by rw [h.2]; rfl⟩
      have hnl : ∃ r, (selectDefaults opts).flatMap (fun x => lit "\n    c." ++ goTypeName E x.1.name ++ lit " = " ++ quoteStrings E x.2) ++ lit "\n}" = 10 :: r := by
        cases selectDefaults opts with
        | nil => exact ⟨[125], rfl⟩
        | cons x xs => exact ⟨_, rfl⟩
      obtain ⟨r, hr⟩ := hnl
      have r4 := reads_piece hp false (b := 10) (r := r) (by rw [← hr]; exact semi ih ⟨r, hr⟩)
      rw [← hr] at r4
      have := ((r1.append r2).append r3).append r4
      simp only [List.append_assoc] at this ⊢
      exact this.of_eq rfl

theorem reads_imports : ∀ {imports : List Bytes}, (∀ i ∈ imports, Quotable i) →
    Reads (.gap false) (imports.flatMap (fun i => lit "\n    \"" ++ i ++ lit "\"") ++ lit "\n    \"") (.str 34 false []) (imports.flatMap fun i => quoted i ++ code (lit ";"))
  | [], _ => by
    show Reads (.gap false) (lit "\n    \"") (.str 34 false []) []
    decide
  | i :: is, h => by
    have ih := reads_imports (imports := is) fun x hx => h x (by simp [hx])
    have r1 : Reads (.gap false) (lit "\n    \"") (.str 34 false []) [] := by decide
    have r2 := reads_quotable [] (h i (by simp))
    have r3 : ∀ b, Reads (.str 34 false b) (lit "\"") (.gap true) [.str 34 b] := fun _ => rfl
    obtain ⟨r, hr⟩ : ∃ r, is.flatMap (fun i => lit "\n    \"" ++ i ++ lit "\"") ++ lit "\n    \"" = 10 :: r := by
      cases is with
      | nil => exact ⟨_, rfl⟩
      | cons x xs => exact ⟨_, rfl⟩
    have r4 : Reads (.gap true) (is.flatMap (fun i => lit "\n    \"" ++ i ++ lit "\"") ++ lit "\n    \"") (.str 34 false []) (.op 59 :: is.flatMap fun i => quoted i ++ code (lit ";")) := by
      rw [hr] at ih ⊢
      have e1 : scan1 (.gap false) 10 = (.gap false, []) := rfl
      have e2 : scan1 (.gap true) 10 = (.gap false, [.op 59]) := rfl
      unfold Reads at *
      simp only [scan, e1, e2, List.nil_append] at ih ⊢
      rw [Prod.mk.injEq] at ih ⊢
      exact ⟨ih.1, by rw [ih.2]; rfl⟩
    have := ((r1.append r2).append (r3 _)).append r4
    rw [List.flatMap_cons, List.flatMap_cons]
    simp only [List.append_assoc] at this ⊢
    exact this.of_eq rfl

theorem reads_license : Reads (.gap false) licenseHeader (.gap false) [] := by decide +kernel

theorem reads_c1 : Reads (.gap false) (lit "\n\n// Code generated by processor/generate.go - DO NOT EDIT.\npackage ") (.gap false) (code (lit "package")) := by decide +kernel

theorem reads_c2 : Reads (.gap true) (lit "\n\nimport (\n") (.gap false) (code (lit ";") ++ code (lit "import (")) := by decide +kernel

theorem reads_c3 : Reads (.str 34 false []) (lit "github.com/andrewkroh/go-sawmill/pkg/processor\"\n    \"github.com/andrewkroh/go-sawmill/pkg/processor/registry\"\n)\n\nfunc init() {\n    registry.MustRegister(processorName, New)\n}\n\nconst (\n    processorName = \"")
    (.str 34 false []) (quoted (lit "github.com/andrewkroh/go-sawmill/pkg/processor") ++ code (lit ";") ++ quoted (lit "github.com/andrewkroh/go-sawmill/pkg/processor/registry") ++ code (lit "; ) ;") ++
      code (lit "func init ( ) { registry . MustRegister ( processorName , New ) ; } ;") ++ code (lit "const ( processorName =")) := by decide +kernel

theorem reads_c4 (s : Bytes) : Reads (.str 34 false s) (lit "\"\n)\n\n// Config contains the configuration options for the ") (.line false) (quoted s ++ code (lit "; ) ;")) := by
  have h1 : Reads (.str 34 false s) (lit "\"") (.gap true) (quoted s) := rfl
  have h2 : Reads (.gap true) (lit "\n)\n\n// Config contains the configuration options for the ") (.line false) (code (lit "; ) ;")) := by decide +kernel
  exact h1.append h2

theorem reads_c5 : Reads (.line false) (lit " processor.\ntype Config struct {") (.gap false) (code (lit "type Config struct {")) := by decide +kernel

theorem reads_c6 : Reads (.gap false) (lit "}\n\n// InitDefaults initializes the configuration options to their default values.\nfunc (c *Config) InitDefaults() {") (.gap false) (code (lit "} ;") ++ code (lit "func ( c * Config ) InitDefaults ( ) {")) := by decide +kernel

theorem reads_c7 : Reads (.gap true) (lit "\n\n// ") (.line false) [.op 59] := by decide +kernel

theorem reads_c8 : Reads (.line false) (lit "\ntype ") (.gap false) (code (lit "type")) := by decide +kernel

theorem reads_c9 : Reads (.gap true) (lit " struct {\n    config Config\n}\n\n// New returns a new ") (.line false) (code (lit "struct { config Config ; } ;")) := by decide +kernel

theorem reads_c10 : Reads (.line false) (lit " processor.\nfunc New(config Config) (*") (.gap false) (code (lit "func New ( config Config ) ( *")) := by decide +kernel

theorem reads_c11 : Reads (.gap true) (lit ", error) {\n    return &") (.gap false) (code (lit ", error ) { return &")) := by decide +kernel

theorem reads_c12 : Reads (.gap true) (lit "{config: config}, nil\n}\n\n// Config returns the ") (.line false) (code (lit "{ config : config } , nil ; } ;")) := by decide +kernel

theorem reads_c13 : Reads (.line false) (lit " processor config.\nfunc (p *") (.gap false) (code (lit "func ( p *")) := by decide +kernel

theorem reads_c14 : Reads (.gap true) (lit ") Config() Config {\n    return p.config\n}\n\nfunc (p *") (.gap false) (code (lit ") Config ( ) Config { return p . config ; } ;") ++ code (lit "func ( p *")) := by decide +kernel

theorem reads_c15 : Reads (.gap true) (lit ") String() string {\n    return processor.ConfigString(processorName, p.config)\n}\n\n") (.gap false) (code (lit ") String ( ) string { return processor . ConfigString ( processorName , p . config ) ; } ;")) := by decide +kernel

theorem reads_process {T : Bytes} (hT : Ident T) (process : Bool) : Reads (.gap false) (if process then lit "\nfunc (p *" ++ T ++ lit ") Process(event processor.Event) error {\n    // TODO: Implement this in process.go.\n    return nil\n}\n" else []) (.gap false)
    (if process then code (lit "func ( p *") ++ [.word T] ++ code (lit ") Process ( event processor . Event ) error { return nil ; } ;") else []) := by
  cases process with
  | false => exact Reads.nil _
  | true =>
    simp only [if_true]
    have h1 : Reads (.gap false) (lit "\nfunc (p *") (.gap false) (code (lit "func ( p *")) := by decide +kernel
    have h2 := reads_ident hT false
    have h3 : Reads (.gap true) (lit ") Process(event processor.Event) error {\n    // TODO: Implement this in process.go.\n    return nil\n}\n") (.gap false) (code (lit ") Process ( event processor . Event ) error { return nil ; } ;")) := by decide +kernel
    have := (h1.append h2).append (reads_apart hT h3)
    exact this.of_eq (by simp)

/-- **C77.** The tokens of a generated file are those of the declarations of the processor: its package, its imports, its options with their tags, the assignments of their defaults, the type, and its methods; nothing in a description makes a difference. -/
theorem generated_tokens {E : GenEnv} {name desc : Bytes} {opts : List Opt} {imports : List Bytes} {process : Bool} {ty : Opt → List Tok} {df : Dflt → List Tok} (hp : Presentable E name opts ty df) (hi : ConfigTypeImports opts imports) {text : Bytes}
    (h : render E name desc opts imports process = some text) :
    tokens text = declarations (E.lower name) (goTypeName E name) name imports (opts.map fun o => (goTypeName E o.name, ty o, o)) (defaultsOf E df opts) process := by
  unfold render at h
  cases hf : renderFields E opts with
  | none => rw [hf] at h; exact absurd h (by simp)
  | some fs =>
  cases hd : descriptionToComment E [] desc with
  | none => rw [hf, hd] at h; exact absurd h (by simp)
  | some d =>
  rw [hf, hd] at h
  simp only [Option.some.injEq] at h
  have hname : (10 : UInt8) ∉ name := fun hm => (hp.name 10 hm).2.2 rfl
  have htype : (10 : UInt8) ∉ goTypeName E name := fun hm => absurd (hp.type.2.1 10 hm) (by decide)
  have himp : ∀ i ∈ imports, Quotable i := by
    intro i hm
    obtain ⟨o, ho, he⟩ := List.mem_filterMap.1 ((hi.2 i).1 hm)
    exact hp.imports o ho i ((needs_iff o i).1 he)
  have hT := hp.type
  have key : Reads (.gap false) text (.gap false) (declarations (E.lower name) (goTypeName E name) name imports (opts.map fun o => (goTypeName E o.name, ty o, o)) (defaultsOf E df opts) process) := by
    rw [← h]
    have a := (reads_license.append reads_c1).append (reads_ident hp.pkg false)
    have a := a.append (reads_apart hp.pkg reads_c2)
    have a := a.append (reads_imports himp)
    have a := (a.append reads_c3).append (reads_quotable [] hp.name)
    have a := ((a.append (reads_c4 _)).append (reads_line hname)).append reads_c5
    have a := (a.append (reads_fields hp.field hp.tag hp.types hf)).append reads_c6
    have a := (a.append (reads_defaults hp.field hp.defaults)).append reads_c7
    have a := (a.append (comment_reads (by simp) hd)).append reads_c8
    have a := (a.append (reads_ident hT false)).append (reads_apart hT reads_c9)
    have a := (a.append (reads_line htype)).append reads_c10
    have a := (a.append (reads_ident hT false)).append (reads_apart hT reads_c11)
    have a := (a.append (reads_ident hT false)).append (reads_apart hT reads_c12)
    have a := (a.append (reads_line htype)).append reads_c13
    have a := (a.append (reads_ident hT false)).append (reads_apart hT reads_c14)
    have a := (a.append (reads_ident hT false)).append (reads_apart hT reads_c15)
    have a := (a.append (reads_process hT process)).append (Reads.append (m1 := .gap false) (a := lit "\n") (s := []) (by decide) (Reads.nil _))
    have e1 : lit "\n    \"github.com/andrewkroh/go-sawmill/pkg/processor\"\n    \"github.com/andrewkroh/go-sawmill/pkg/processor/registry\"\n)\n\nfunc init() {\n    registry.MustRegister(processorName, New)\n}\n\nconst (\n    processorName = \"" = lit "\n    \"" ++
      lit "github.com/andrewkroh/go-sawmill/pkg/processor\"\n    \"github.com/andrewkroh/go-sawmill/pkg/processor/registry\"\n)\n\nfunc init() {\n    registry.MustRegister(processorName, New)\n}\n\nconst (\n    processorName = \"" := by decide +kernel
    have e2 : lit "\n}\n\n// " = lit "\n}" ++ lit "\n\n// " := by decide +kernel
    have e3 : code (lit "} ;") = [.op 125] ++ [.op 59] := by decide +kernel
    rw [e1, e2]
    unfold declarations
    rw [e3] at a ⊢
    simp only [List.append_assoc, List.nil_append, List.append_nil, List.cons_append] at a ⊢
    exact a
  unfold tokens
  rw [key]
  simp [finish]

end Gen
end Sawmill
