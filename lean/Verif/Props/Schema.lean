import Verif.Spec.Schema
import Verif.Props.YamlMerge
/-!
# C95: what processors.yml is decoded into
-/

namespace Sawmill
namespace Gen

/-! ## Entries and names -/

/-- What is under a name in a list of entries. -/
def xFind (k : Bytes) : List (Bytes × MYaml) → Option MYaml
  | [] => none
  | (n, y) :: xs => if n = k then some y else xFind k xs

theorem xFind_mem {k : Bytes} {xs : List (Bytes × MYaml)} {y : MYaml} (h : xFind k xs = some y) : (k, y) ∈ xs := by
  induction xs with
  | nil => cases h
  | cons x xs ih =>
    obtain ⟨n, v⟩ := x
    simp only [xFind] at h
    split at h
    · rename_i hn
      subst hn; cases h
      exact List.mem_cons_self ..
    · exact List.mem_cons_of_mem _ (ih h)

theorem xFind_none {k : Bytes} {xs : List (Bytes × MYaml)} (h : xFind k xs = none) (y : MYaml) : (k, y) ∉ xs := by
  induction xs with
  | nil => simp
  | cons x xs ih =>
    obtain ⟨n, v⟩ := x
    simp only [xFind] at h
    split at h
    · cases h
    · rename_i hn
      intro hm
      rcases List.mem_cons.1 hm with hm | hm
      · cases hm; exact hn rfl
      · exact ih h hm

theorem xFind_tail {k : Bytes} {y : MYaml} {xs : List (Bytes × MYaml)} (h : (((k, y) :: xs).map (·.1)).Nodup) : xFind k xs = none := by
  cases hf : xFind k xs with
  | none => rfl
  | some v => exact absurd (List.mem_map_of_mem (f := (·.1)) (xFind_mem hf)) (List.nodup_cons.1 h).1

/-- What is under a name before and after expansion. -/
inductive FieldAs : Option MYaml → Option Yaml → Prop where
  | none : FieldAs none none
  | some (y : MYaml) (z : Yaml) (h : Expands y z) : FieldAs (some y) (some z)

/-- The entries of a mapping that is decoded, and those of the mapping that it stands for. -/
structure View (xs : List (Bytes × MYaml)) (fs : List (Yaml × Yaml)) : Prop where
  keys : NamedKeys fs
  nodup : (xs.map (·.1)).Nodup
  fwd : ∀ n y, (n, y) ∈ xs → ∃ z, UnderName fs n (some z) ∧ Expands y z
  bwd : ∀ n z, UnderName fs n (some z) → ∃ y, (n, y) ∈ xs ∧ Expands y z

theorem View.field {xs : List (Bytes × MYaml)} {fs : List (Yaml × Yaml)} (v : View xs fs) (k : Bytes) : ∃ o, UnderName fs k o ∧ FieldAs (xFind k xs) o := by
  cases h : xFind k xs with
  | some y =>
    obtain ⟨z, hu, hz⟩ := v.fwd k y (xFind_mem h)
    exact ⟨some z, hu, .some _ _ hz⟩
  | none =>
    refine ⟨none, ?_, .none⟩
    intro e he hk
    obtain ⟨y, hy, _⟩ := v.bwd k e.2 ⟨e.1, he, hk⟩
    exact xFind_none h y hy

theorem expandsE_scalar {es : List (MYaml × MYaml)} {fs : List (Yaml × Yaml)} (h : ExpandsE es fs) : ∀ e ∈ fs, e.1.Scalar := by
  cases h with
  | nil => simp
  | str t y z es fs h1 h2 => simpa [Yaml.Scalar] using expandsE_scalar h2
  | plain t v y z es fs h1 h2 => simpa [Yaml.Scalar] using expandsE_scalar h2
termination_by es.length

theorem expandsE_own {es : List (MYaml × MYaml)} {fs : List (Yaml × Yaml)} (h : ExpandsE es fs) (hu : Unrepeated fs) : ∃ xs, visitOwn mName .str es none = some (xs, none) ∧ View xs fs ∧ ∀ s, visitMerge mName .str es s = some ([], s) := by
  cases h with
  | nil => exact ⟨[], rfl, ⟨⟨hu, by simp⟩, by simp, by simp, by rintro n z ⟨k, hk, _⟩; cases hk⟩, fun s => by simp [visitMerge]⟩
  | str t y z es fs h1 h2 =>
    have hu' := List.pairwise_cons.1 hu
    obtain ⟨xs, he, v, hm⟩ := expandsE_own h2 hu'.2
    have hno : ∀ y, (t, y) ∉ xs := by
      intro y hy
      obtain ⟨z', ⟨k, hk, hn⟩, _⟩ := v.fwd t y hy
      exact hu'.1 _ hk (looks_of_name rfl hn)
    refine ⟨(t, y) :: xs, ?_, ⟨⟨hu, ?_⟩, ?_, ?_, ?_⟩, fun s => by simpa [visitMerge, MYaml.isMerge] using hm s⟩
    · show (visitOwn mName YKey.str es none).map (fun r => ((t, y) :: r.1, r.2)) = _
      rw [he]; rfl
    · intro e hm
      rcases List.mem_cons.1 hm with rfl | hm
      · trivial
      · exact v.keys.2 e hm
    · refine List.nodup_cons.2 ⟨?_, v.nodup⟩
      intro hm
      obtain ⟨⟨n, w⟩, hx, rfl⟩ := List.mem_map.1 hm
      exact hno w hx
    · intro n w hm
      rcases List.mem_cons.1 hm with hm | hm
      · cases hm; exact ⟨z, ⟨_, List.mem_cons_self .., rfl⟩, h1⟩
      · obtain ⟨z', ⟨k, hk, hn⟩, hz⟩ := v.fwd n w hm
        exact ⟨z', ⟨k, List.mem_cons_of_mem _ hk, hn⟩, hz⟩
    · rintro n w ⟨k, hk, hn⟩
      rcases List.mem_cons.1 hk with hk | hk
      · cases hk
        cases hn
        exact ⟨y, List.mem_cons_self .., h1⟩
      · obtain ⟨y', hy, hz⟩ := v.bwd n w ⟨k, hk, hn⟩
        exact ⟨y', List.mem_cons_of_mem _ hy, hz⟩
  | plain t v y z es fs h1 h2 =>
    have hu' := List.pairwise_cons.1 hu
    obtain ⟨xs, he, w, hm⟩ := expandsE_own h2 hu'.2
    have hsc : ∀ e ∈ (Yaml.plain t v, z) :: fs, e.1.Scalar := by
      intro e hm
      rcases List.mem_cons.1 hm with rfl | hm
      · trivial
      · exact w.keys.2 e hm
    by_cases hv : v = .null
    · subst hv
      refine ⟨xs, ?_, ⟨⟨hu, hsc⟩, w.nodup, ?_, ?_⟩, fun s => by simpa [visitMerge, MYaml.isMerge] using hm s⟩
      · exact he
      · intro n y' hm
        obtain ⟨z', ⟨k, hk, hn⟩, hz⟩ := w.fwd n y' hm
        exact ⟨z', ⟨k, List.mem_cons_of_mem _ hk, hn⟩, hz⟩
      · rintro n y' ⟨k, hk, hn⟩
        rcases List.mem_cons.1 hk with hk | hk
        · cases hk
          simp [Yaml.name] at hn
        · exact w.bwd n y' ⟨k, hk, hn⟩
    · have hname : (Yaml.plain t v).name = some t := by simp [Yaml.name, hv]
      have hno : ∀ y, (t, y) ∉ xs := by
        intro y hy
        obtain ⟨z', ⟨k, hk, hn⟩, _⟩ := w.fwd t y hy
        exact hu'.1 _ hk (looks_of_name hname hn)
      refine ⟨(t, y) :: xs, ?_, ⟨⟨hu, hsc⟩, ?_, ?_, ?_⟩, fun s => by simpa [visitMerge, MYaml.isMerge] using hm s⟩
      · have : mName (.plain t v) = some (some t) := by cases v <;> first | rfl | exact absurd rfl hv
        unfold visitOwn
        rw [this]
        show (visitOwn mName YKey.str es none).map (fun r => ((t, y) :: r.1, r.2)) = _
        rw [he]; rfl
      · refine List.nodup_cons.2 ⟨?_, w.nodup⟩
        intro hm
        obtain ⟨⟨n, u⟩, hx, rfl⟩ := List.mem_map.1 hm
        exact hno u hx
      · intro n u hm
        rcases List.mem_cons.1 hm with hm | hm
        · cases hm; exact ⟨z, ⟨_, List.mem_cons_self .., hname⟩, h1⟩
        · obtain ⟨z', ⟨k, hk, hn⟩, hz⟩ := w.fwd n u hm
          exact ⟨z', ⟨k, List.mem_cons_of_mem _ hk, hn⟩, hz⟩
      · rintro n u ⟨k, hk, hn⟩
        rcases List.mem_cons.1 hk with hk | hk
        · cases hk
          rw [hname] at hn
          cases hn
          exact ⟨y, List.mem_cons_self .., h1⟩
        · obtain ⟨y', hy, hz⟩ := w.bwd n u ⟨k, hk, hn⟩
          exact ⟨y', List.mem_cons_of_mem _ hy, hz⟩
termination_by es.length

theorem expandsE_kinds {es : List (MYaml × MYaml)} {fs : List (Yaml × Yaml)} (h : ExpandsE es fs) : es.map (fun e => e.1.kindValue) = fs.map fun e => e.1.kindValue := by
  cases h with
  | nil => rfl
  | str t y z es fs h1 h2 => rw [List.map_cons, List.map_cons, expandsE_kinds h2]; rfl
  | plain t v y z es fs h1 h2 => rw [List.map_cons, List.map_cons, expandsE_kinds h2]; rfl
termination_by es.length

theorem visitOwn_mem {κ : Type} {key : MYaml → Option (Option κ)} {emb : κ → YKey} {es : List (MYaml × MYaml)} {xs : List (κ × MYaml)} (h : visitOwn key emb es none = some (xs, none)) : ∀ n y, (n, y) ∈ xs → ∃ k, (k, y) ∈ es := by
  induction es generalizing xs with
  | nil => cases h; intro n y hm; cases hm
  | cons e es ih =>
    obtain ⟨k, v⟩ := e
    have up : ∀ {y}, (∃ k, (k, y) ∈ es) → ∃ k', (k', y) ∈ (k, v) :: es := fun ⟨k', h⟩ => ⟨k', List.mem_cons_of_mem _ h⟩
    unfold visitOwn at h
    split at h
    · intro n y hm; exact up (ih h n y hm)
    · split at h
      · cases h
      · intro n y hm; exact up (ih h n y hm)
      · rename_i m _
        obtain ⟨r, hr, he⟩ := Option.map_eq_some_iff.1 h
        obtain ⟨r1, r2⟩ := r
        cases he
        intro n y hm
        rcases List.mem_cons.1 hm with hm | hm
        · cases hm; exact ⟨k, List.mem_cons_self ..⟩
        · exact up (ih hr n y hm)

/-- The two ways in which the entries of a mapping can be gathered. -/
theorem names_view {es : List (MYaml × MYaml)} {z : Yaml} (h : Expands (.map es) z) :
    ∃ fs, z = .map fs ∧ ((visitNames es = none ∧ ¬ NamedKeys fs) ∨ ∃ xs, visitNames es = some xs ∧ View xs fs ∧ ∀ n y, (n, y) ∈ xs → y.depth ≤ MYaml.depthE es) := by
  cases h with
  | map _ fs h =>
    refine ⟨fs, rfl, ?_⟩
    have hr := repeatedM_as (expandsE_kinds h)
    cases hd : repeatedKey fs with
    | true =>
      rw [hd] at hr
      refine .inl ⟨by simp only [visitNames, visit, hr, if_true], fun hk => ?_⟩
      have := (repeatedKey_iff fs).2 hk.1
      rw [hd] at this; cases this
    | false =>
      rw [hd] at hr
      obtain ⟨xs, he, v, hm⟩ := expandsE_own h ((repeatedKey_iff fs).1 hd)
      refine .inr ⟨xs, ?_, v, fun n y hy => ?_⟩
      · simp only [visitNames, visit, hr, he, hm, Option.map_some, List.append_nil]
        rfl
      · obtain ⟨k, hk⟩ := visitOwn_mem he n y hy
        exact depthE_mem hk
  | merged _ names under hm hc hn h hv =>
    refine ⟨_, rfl, .inr ?_⟩
    obtain ⟨xs, he, hd, hx⟩ := visitNames_spec hc
    have key : ∀ n z, UnderName (names.map fun n => (Yaml.str n, under n)) n (some z) ↔ n ∈ names ∧ z = under n := by
      intro n z
      constructor
      · rintro ⟨k, hk, hkn⟩
        obtain ⟨m, hm, he⟩ := List.mem_map.1 hk
        cases he
        cases hkn
        exact ⟨hm, rfl⟩
      · rintro ⟨hm, rfl⟩
        exact ⟨.str n, List.mem_map_of_mem hm, rfl⟩
    refine ⟨xs, he, ⟨⟨?_, ?_⟩, hd, ?_, ?_⟩, fun n y hy => ?_⟩
    · unfold Unrepeated
      rw [List.pairwise_map]
      refine hn.imp ?_
      intro a b hab hl
      rw [looks_iff] at hl
      simp only [Yaml.kindValue, Prod.mk.injEq, true_and] at hl
      exact hab hl
    · intro e he
      obtain ⟨m, _, rfl⟩ := List.mem_map.1 he
      trivial
    · intro n y hy
      have hy' := (hx n y).1 hy
      exact ⟨under n, (key _ _).2 ⟨(h n).2 ⟨y, hy'⟩, rfl⟩, hv n y hy'⟩
    · intro n z hz
      obtain ⟨hm, rfl⟩ := (key _ _).1 hz
      obtain ⟨y, hy⟩ := (h n).1 hm
      exact ⟨y, (hx n y).2 hy, hv n y hy⟩
    · have := nodeEntry_depth n _ ((hx n y).1 hy)
      simp only [MYaml.depth] at this
      omega

/-! ## Fields -/

/-- Reading a field that may be absent. -/
def atField {α : Type} (f : MYaml → α → Option α) : Option MYaml → α → Option α
  | none, a => some a
  | some y, a => f y a

theorem str_as {o : Option MYaml} {p : Option Yaml} (h : FieldAs o p) (s : Bytes) : atField mString o [] = some s ↔ YStrIs p s := by
  cases h with
  | none =>
    rw [← yStrAt_iff]; rfl
  | some y z h =>
    rw [← yStrAt_iff]
    show mString y [] = some s ↔ yString z [] = some s
    rw [(read_as h _ (Nat.le_refl _)).str]

theorem bool_as {E : SchemaEnv} {o : Option MYaml} {p : Option Yaml} (h : FieldAs o p) (b : Bool) : atField (sBool E) o false = some b ↔ YBoolIs E p b := by
  cases h with
  | none =>
    constructor
    · intro h; cases h; exact .absent
    · intro h; cases h; rfl
  | some y z h =>
    show sBool E y false = some b ↔ _
    cases h with
    | str t =>
      constructor
      · intro h; exact .str _ _ h
      · intro h; cases h; assumption
    | plain t v =>
      cases v with
      | null =>
        constructor
        · intro h; cases h; exact .null t
        · intro h; cases h; rfl
      | bool b' =>
        constructor
        · intro h; cases h; exact .bool _ _
        · intro h; cases h; rfl
      | _ =>
        constructor
        · intro h; cases h
        · intro h; cases h
    | text =>
      constructor
      · intro h; exact .str _ _ h
      · intro h; cases h; assumption
    | seq ys zs h =>
      constructor
      · intro h; cases h
      · intro h; cases h
    | map es fs h =>
      constructor
      · intro h; cases h
      · intro h; cases h
    | merged es names under hm hc hn h hv =>
      constructor
      · intro h; cases h
      · intro h; cases h

theorem truthy_iff (v : YVal) (hn : v ≠ .plain .null) (hs : ∀ s, v ≠ .str s) : truthy v = true ↔ ¬ Falsy v := by
  cases v with
  | plain p =>
    cases p with
    | null => exact absurd rfl hn
    | bool b =>
      cases b
      · simp only [truthy, Bool.false_eq_true, false_iff, Classical.not_not]; exact .false
      · simp only [truthy, true_iff]; intro h; cases h
    | int i =>
      simp only [truthy, decide_eq_true_eq]
      constructor
      · intro h h'; cases h'; exact h rfl
      · rintro h rfl; exact h .int
    | uint i =>
      simp only [truthy, decide_eq_true_eq]
      constructor
      · intro h h'; cases h'; exact h rfl
      · rintro h rfl; exact h .uint
    | float f =>
      simp only [truthy, decide_eq_true_eq]
      constructor
      · intro h h'; cases h'
        · exact h.1 rfl
        · exact h.2 rfl
      · intro h
        refine ⟨?_, ?_⟩
        · rintro rfl; exact h .zero
        · rintro rfl; exact h .negZero
    | time t => simp only [truthy, true_iff]; intro h; cases h
  | str s => exact absurd rfl (hs s)
  | list vs =>
    cases vs
    · simp only [truthy, List.isEmpty_nil, Bool.not_true, Bool.false_eq_true, false_iff, Classical.not_not]; exact .list
    · simp only [truthy, List.isEmpty_cons, Bool.not_false, true_iff]; intro h; cases h
  | smap vs =>
    cases vs
    · simp only [truthy, List.isEmpty_nil, Bool.not_true, Bool.false_eq_true, false_iff, Classical.not_not]; exact .smap
    · simp only [truthy, List.isEmpty_cons, Bool.not_false, true_iff]; intro h; cases h
  | gmap vs =>
    cases vs
    · simp only [truthy, List.isEmpty_nil, Bool.not_true, Bool.false_eq_true, false_iff, Classical.not_not]; exact .gmap
    · simp only [truthy, List.isEmpty_cons, Bool.not_false, true_iff]; intro h; cases h

theorem dflt_as {E : SchemaEnv} {o : Option MYaml} {p : Option Yaml} (h : FieldAs o p) (n : Nat) (hn : ∀ y, o = some y → y.depth ≤ n) (d : Option Dflt) :
    (atField (fun y _ => (mAny n y).map (dflt E)) o none = some d) ↔ YDefaultIs E p d := by
  cases h with
  | none =>
    constructor
    · intro h; cases h; exact .absent
    · intro h; cases h; rfl
  | some y z h =>
    show (mAny n y).map (dflt E) = some d ↔ _
    rw [(read_as h n (hn y rfl)).any]
    rw [Option.map_eq_some_iff]
    constructor
    · rintro ⟨v, hv, rfl⟩
      rw [yAny_iff] at hv
      by_cases h1 : v = .plain .null
      · subst h1
        cases hv
        exact .null _
      · by_cases h2 : ∃ s, v = .str s
        · obtain ⟨s, rfl⟩ := h2
          cases hv
          exact .str _
        · have : dflt E v = some (.other (E.print v) (truthy v)) := by
            cases v with
            | plain p => cases p <;> first | rfl | exact absurd rfl h1
            | str s => exact absurd ⟨s, rfl⟩ h2
            | _ => rfl
          rw [this]
          exact .other z v _ hv h1 (fun s hs => h2 ⟨s, hs⟩) (truthy_iff v h1 fun s hs => h2 ⟨s, hs⟩)
    · intro h
      cases h with
      | null t => exact ⟨.plain .null, rfl, rfl⟩
      | str s => exact ⟨.str s, rfl, rfl⟩
      | other _ v b hv h1 h2 hb =>
        refine ⟨v, (yAny_iff _ _).2 hv, ?_⟩
        have : dflt E v = some (.other (E.print v) (truthy v)) := by
          cases v with
          | plain p => cases p <;> first | rfl | exact absurd rfl h1
          | str s => exact absurd rfl (h2 s)
          | _ => rfl
        rw [this]
        have : truthy v = b := by
          have := truthy_iff v h1 h2
          rw [← hb] at this
          exact Bool.eq_iff_iff.2 this
        rw [this]

theorem xFind_self (k : Bytes) (y : MYaml) (xs : List (Bytes × MYaml)) : xFind k ((k, y) :: xs) = some y := by simp [xFind]

theorem xFind_ne {n k : Bytes} (h : n ≠ k) (y : MYaml) (xs : List (Bytes × MYaml)) : xFind k ((n, y) :: xs) = xFind k xs := by simp [xFind, h]

theorem sOptFields_iff {E : SchemaEnv} {n : Nat} {xs : List (Bytes × MYaml)} (hd : (xs.map (·.1)).Nodup) (o o' : Opt) :
    sOptFields E n xs o = some o' ↔ (∀ x ∈ xs, x.1 ∈ [lit "name", lit "type", lit "required", lit "optional", lit "default", lit "description"]) ∧
      atField mString (xFind (lit "name") xs) o.name = some o'.name ∧ atField mString (xFind (lit "type") xs) o.type = some o'.type ∧
      atField (sBool E) (xFind (lit "required") xs) o.required = some o'.required ∧ atField (sBool E) (xFind (lit "optional") xs) o.optional = some o'.optional ∧
      atField (fun y _ => (mAny n y).map (dflt E)) (xFind (lit "default") xs) o.default = some o'.default ∧ atField mString (xFind (lit "description") xs) o.description = some o'.description := by
  induction xs generalizing o with
  | nil =>
    obtain ⟨a, b, c, d, e, f⟩ := o
    obtain ⟨a', b', c', d', e', f'⟩ := o'
    simp only [sOptFields, xFind, atField, Option.some.injEq, Opt.mk.injEq, List.not_mem_nil, false_imp_iff, implies_true, true_and]
  | cons x xs ih =>
    obtain ⟨k, y⟩ := x
    have ht := xFind_tail hd
    replace ih := ih (List.nodup_cons.1 hd).2
    have hall : (∀ x ∈ (k, y) :: xs, x.1 ∈ [lit "name", lit "type", lit "required", lit "optional", lit "default", lit "description"]) ↔
        k ∈ [lit "name", lit "type", lit "required", lit "optional", lit "default", lit "description"] ∧ ∀ x ∈ xs, x.1 ∈ [lit "name", lit "type", lit "required", lit "optional", lit "default", lit "description"] := by
      simp only [List.forall_mem_cons]
    rw [hall]
    unfold sOptFields
    by_cases h1 : k = lit "name"
    · subst h1
      rw [if_pos rfl, xFind_self, xFind_ne (by decide), xFind_ne (by decide), xFind_ne (by decide), xFind_ne (by decide), xFind_ne (by decide)]
      cases hy : mString y o.name with
      | none => simp [atField, hy]
      | some s =>
        simp only [ih, ht, atField, hy, List.mem_cons, true_or, true_and]
    rw [if_neg h1]
    by_cases h2 : k = lit "type"
    · subst h2
      rw [if_pos rfl, xFind_self, xFind_ne (by decide), xFind_ne (by decide), xFind_ne (by decide), xFind_ne (by decide), xFind_ne (by decide)]
      cases hy : mString y o.type with
      | none => simp [atField, hy]
      | some s =>
        simp only [ih, ht, atField, hy, List.mem_cons, true_or, or_true, true_and]
    rw [if_neg h2]
    by_cases h3 : k = lit "required"
    · subst h3
      rw [if_pos rfl, xFind_self, xFind_ne (by decide), xFind_ne (by decide), xFind_ne (by decide), xFind_ne (by decide), xFind_ne (by decide)]
      cases hy : sBool E y o.required with
      | none => simp [atField, hy]
      | some s =>
        simp only [ih, ht, atField, hy, List.mem_cons, true_or, or_true, true_and]
    rw [if_neg h3]
    by_cases h4 : k = lit "optional"
    · subst h4
      rw [if_pos rfl, xFind_self, xFind_ne (by decide), xFind_ne (by decide), xFind_ne (by decide), xFind_ne (by decide), xFind_ne (by decide)]
      cases hy : sBool E y o.optional with
      | none => simp [atField, hy]
      | some s =>
        simp only [ih, ht, atField, hy, List.mem_cons, true_or, or_true, true_and]
    rw [if_neg h4]
    by_cases h5 : k = lit "default"
    · subst h5
      rw [if_pos rfl, xFind_self, xFind_ne (by decide), xFind_ne (by decide), xFind_ne (by decide), xFind_ne (by decide), xFind_ne (by decide)]
      cases hy : mAny n y with
      | none => simp [atField, hy]
      | some s =>
        simp only [ih, ht, atField, hy, Option.map_some, List.mem_cons, true_or, or_true, true_and]
    rw [if_neg h5]
    by_cases h6 : k = lit "description"
    · subst h6
      rw [if_pos rfl, xFind_self, xFind_ne (by decide), xFind_ne (by decide), xFind_ne (by decide), xFind_ne (by decide), xFind_ne (by decide)]
      cases hy : mString y o.description with
      | none => simp [atField, hy]
      | some s =>
        simp only [ih, ht, atField, hy, List.mem_cons, true_or, or_true, true_and]
    rw [if_neg h6]
    constructor
    · intro h; cases h
    · rintro ⟨⟨hk, _⟩, _⟩
      simp only [List.mem_cons, List.not_mem_nil, or_false] at hk
      rcases hk with hk | hk | hk | hk | hk | hk <;> contradiction

theorem sProcFields_iff {E : SchemaEnv} {n : Nat} {xs : List (Bytes × MYaml)} (hd : (xs.map (·.1)).Nodup) (o o' : Proc) :
    sProcFields E n xs o = some o' ↔ (∀ x ∈ xs, x.1 ∈ [lit "description", lit "configuration"]) ∧
      atField mString (xFind (lit "description") xs) o.description = some o'.description ∧ atField (fun y _ => sOpts E n y) (xFind (lit "configuration") xs) o.configuration = some o'.configuration := by
  induction xs generalizing o with
  | nil =>
    obtain ⟨a, b⟩ := o
    obtain ⟨a', b'⟩ := o'
    simp only [sProcFields, xFind, atField, Option.some.injEq, Proc.mk.injEq, List.not_mem_nil, false_imp_iff, implies_true, true_and]
  | cons x xs ih =>
    obtain ⟨k, y⟩ := x
    have ht := xFind_tail hd
    replace ih := ih (List.nodup_cons.1 hd).2
    have hall : (∀ x ∈ (k, y) :: xs, x.1 ∈ [lit "description", lit "configuration"]) ↔ k ∈ [lit "description", lit "configuration"] ∧ ∀ x ∈ xs, x.1 ∈ [lit "description", lit "configuration"] := by
      simp only [List.forall_mem_cons]
    rw [hall]
    unfold sProcFields
    by_cases h1 : k = lit "description"
    · subst h1
      rw [if_pos rfl, xFind_self, xFind_ne (by decide)]
      cases hy : mString y o.description with
      | none => simp [atField, hy]
      | some s => simp only [ih, ht, atField, hy, List.mem_cons, true_or, true_and]
    rw [if_neg h1]
    by_cases h2 : k = lit "configuration"
    · subst h2
      rw [if_pos rfl, xFind_self, xFind_ne (by decide)]
      cases hy : sOpts E n y with
      | none => simp [atField, hy]
      | some s => simp only [ih, ht, atField, hy, List.mem_cons, true_or, or_true, true_and]
    rw [if_neg h2]
    constructor
    · intro h; cases h
    · rintro ⟨⟨hk, _⟩, _⟩
      simp only [List.mem_cons, List.not_mem_nil, or_false] at hk
      rcases hk with hk | hk <;> contradiction

theorem sTopFields_iff {E : SchemaEnv} {n : Nat} {xs : List (Bytes × MYaml)} (hd : (xs.map (·.1)).Nodup) (s s' : Schema) :
    sTopFields E n xs s = some s' ↔ (∀ x ∈ xs, x.1 ∈ [lit "common_fields", lit "processors"]) ∧
      atField (fun y _ => sCommon n y) (xFind (lit "common_fields") xs) () = some () ∧ atField (fun y _ => sProcs E n y) (xFind (lit "processors") xs) s = some s' := by
  induction xs generalizing s with
  | nil => simp only [sTopFields, xFind, atField, Option.some.injEq, List.not_mem_nil, false_imp_iff, implies_true, true_and]
  | cons x xs ih =>
    obtain ⟨k, y⟩ := x
    have ht := xFind_tail hd
    replace ih := ih (List.nodup_cons.1 hd).2
    have hall : (∀ x ∈ (k, y) :: xs, x.1 ∈ [lit "common_fields", lit "processors"]) ↔ k ∈ [lit "common_fields", lit "processors"] ∧ ∀ x ∈ xs, x.1 ∈ [lit "common_fields", lit "processors"] := by
      simp only [List.forall_mem_cons]
    rw [hall]
    unfold sTopFields
    by_cases h1 : k = lit "common_fields"
    · subst h1
      rw [if_pos rfl, xFind_self, xFind_ne (by decide)]
      cases hy : sCommon n y with
      | none => simp [atField, hy]
      | some u => simp only [ih, ht, atField, hy, List.mem_cons, true_or, true_and]
    rw [if_neg h1]
    by_cases h2 : k = lit "processors"
    · subst h2
      rw [if_pos rfl, xFind_self, xFind_ne (by decide)]
      cases hy : sProcs E n y with
      | none => simp [atField, hy]
      | some u => simp only [ih, ht, atField, hy, List.mem_cons, true_or, or_true, true_and]
    rw [if_neg h2]
    constructor
    · intro h; cases h
    · rintro ⟨⟨hk, _⟩, _⟩
      simp only [List.mem_cons, List.not_mem_nil, or_false] at hk
      rcases hk with hk | hk <;> contradiction

/-! ## Structs -/

theorem struct_keys {xs : List (Bytes × MYaml)} {fs : List (Yaml × Yaml)} (v : View xs fs) (names : List Bytes) : (∀ x ∈ xs, x.1 ∈ names) ↔ StructKeys names fs := by
  constructor
  · intro h
    refine ⟨v.keys, ?_⟩
    intro e he n hn
    obtain ⟨y, hy, _⟩ := v.bwd n e.2 ⟨e.1, he, hn⟩
    exact h _ hy
  · rintro ⟨_, h⟩ ⟨n, y⟩ hx
    obtain ⟨z, ⟨k, hk, hn⟩, _⟩ := v.fwd n y hx
    exact h _ hk n hn

theorem field_iff {A : Prop} {P : Option Yaml → Prop} {xs : List (Bytes × MYaml)} {fs : List (Yaml × Yaml)} (v : View xs fs) (k : Bytes) (h : ∀ o, FieldAs (xFind k xs) o → (A ↔ P o)) : A ↔ ∃ o, UnderName fs k o ∧ P o := by
  obtain ⟨o, ho, hf⟩ := v.field k
  rw [h o hf]
  constructor
  · intro hp; exact ⟨o, ho, hp⟩
  · rintro ⟨o', ho', hp⟩
    rw [under_unique v.keys.1 ho ho']
    exact hp

theorem xFind_deep {xs : List (Bytes × MYaml)} {n : Nat} (hd : ∀ m y, (m, y) ∈ xs → y.depth ≤ n) (k : Bytes) : ∀ y, xFind k xs = some y → y.depth ≤ n := fun y h => hd k y (xFind_mem h)

theorem optFields_as {E : SchemaEnv} {xs : List (Bytes × MYaml)} {fs : List (Yaml × Yaml)} {n : Nat} (v : View xs fs) (hd : ∀ m y, (m, y) ∈ xs → y.depth ≤ n) (o : Opt) : sOptFields E n xs { name := [], type := [] } = some o ↔ IsOption E (.map fs) o := by
  rw [sOptFields_iff v.nodup, struct_keys v, field_iff v (lit "name") fun p hp => str_as hp o.name, field_iff v (lit "type") fun p hp => str_as hp o.type, field_iff v (lit "required") fun p hp => bool_as hp o.required,
    field_iff v (lit "optional") fun p hp => bool_as hp o.optional, field_iff v (lit "default") fun p hp => dflt_as hp n (xFind_deep hd _) o.default, field_iff v (lit "description") fun p hp => str_as hp o.description]
  constructor
  · rintro ⟨hk, ⟨a, ha, ha'⟩, ⟨b, hb, hb'⟩, ⟨c, hc, hc'⟩, ⟨d, hd, hd'⟩, ⟨e, he, he'⟩, ⟨f, hf, hf'⟩⟩
    exact ⟨fs, a, b, c, d, e, f, rfl, hk, ha, ha', hb, hb', hc, hc', hd, hd', he, he', hf, hf'⟩
  · rintro ⟨fs', a, b, c, d, e, f, h, hk, ha, ha', hb, hb', hc, hc', hd, hd', he, he', hf, hf'⟩
    cases h
    exact ⟨hk, ⟨a, ha, ha'⟩, ⟨b, hb, hb'⟩, ⟨c, hc, hc'⟩, ⟨d, hd, hd'⟩, ⟨e, he, he'⟩, ⟨f, hf, hf'⟩⟩

theorem option_keys {E : SchemaEnv} {fs : List (Yaml × Yaml)} {o : Opt} (h : IsOption E (.map fs) o) : NamedKeys fs := by
  obtain ⟨fs', a, b, c, d, e, f, h, hk, _⟩ := h
  cases h
  exact hk.1

/-- An element that is left out, or an option. -/
def ItemIs (E : SchemaEnv) (z : Yaml) : Option Opt → Prop
  | none => IsNull z
  | some o => IsOption E z o

theorem sOpt_as {E : SchemaEnv} {y : MYaml} {z : Yaml} (h : Expands y z) (n : Nat) (hn : y.depth ≤ n) (o : Option Opt) : sOpt E n y = some o ↔ ItemIs E z o := by
  have no : ∀ {A : Prop} {z : Yaml}, (¬ ∃ t, z = .plain t .null) → (¬ ∃ es, z = .map es) → ¬ A → (A ↔ ItemIs E z o) := by
    intro A z h1 h2 ha
    refine ⟨fun h => absurd h ha, fun h => ?_⟩
    cases o with
    | none => exact absurd h h1
    | some o => obtain ⟨es, _, _, _, _, _, _, he, _⟩ := h; exact absurd ⟨es, he⟩ h2
  have mapCase : ∀ {es : List (MYaml × MYaml)} {z : Yaml}, Expands (.map es) z → (MYaml.map es).depth ≤ n → (sOpt E n (.map es) = some o ↔ ItemIs E z o) := by
    intro es z h hn
    simp only [MYaml.depth] at hn
    obtain ⟨m, rfl⟩ : ∃ m, n = m + 1 := ⟨n - 1, by omega⟩
    simp only [sOpt]
    obtain ⟨fs, rfl, ⟨hv, hk⟩ | ⟨xs, hv, v, hd⟩⟩ := names_view h
    · rw [hv]
      constructor
      · intro h; cases h
      · intro h
        cases o with
        | none => obtain ⟨t, h⟩ := h; cases h
        | some o => exact absurd (option_keys h) hk
    · rw [hv]
      show (sOptFields E m xs _).map some = _ ↔ _
      cases o with
      | none =>
        constructor
        · intro h
          obtain ⟨_, _, h⟩ := Option.map_eq_some_iff.1 h
          cases h
        · rintro ⟨t, h⟩; cases h
      | some o =>
        rw [Option.map_eq_some_iff]
        rw [show ItemIs E (.map fs) (some o) ↔ IsOption E (.map fs) o from Iff.rfl, ← optFields_as v (n := m) (fun k y hy => Nat.le_trans (hd k y hy) (by omega)) o]
        constructor
        · rintro ⟨o', h, he⟩; cases he; exact h
        · intro h; exact ⟨o, h, rfl⟩
  cases h with
  | str t => exact no (by rintro ⟨_, h⟩; cases h) (by rintro ⟨_, h⟩; cases h) (by simp [sOpt])
  | plain t v =>
    by_cases hv : v = .null
    · subst hv
      simp only [sOpt]
      cases o with
      | none => exact ⟨fun _ => ⟨t, rfl⟩, fun _ => rfl⟩
      | some o =>
        constructor
        · intro h; cases h
        · rintro ⟨es, _, _, _, _, _, _, he, _⟩; cases he
    · exact no (by rintro ⟨_, h⟩; cases h; exact hv rfl) (by rintro ⟨_, h⟩; cases h) (by cases v <;> first | exact absurd rfl hv | simp [sOpt])
  | text => exact no (by rintro ⟨_, h⟩; cases h) (by rintro ⟨_, h⟩; cases h) (by simp [sOpt])
  | seq ys zs h => exact no (by rintro ⟨_, h⟩; cases h) (by rintro ⟨_, h⟩; cases h) (by simp [sOpt])
  | map es fs h => exact mapCase (.map es fs h) hn
  | merged es names under hm hc hd h hv => exact mapCase (.merged es names under hm hc hd h hv) hn

theorem optList_as {E : SchemaEnv} {ys : List MYaml} {zs : List Yaml} (h : ExpandsL ys zs) (n : Nat) (hn : MYaml.depthL ys ≤ n) (os : List Opt) : (∃ l, allSome (sOpt E n) ys = some l ∧ l.filterMap id = os) ↔ AreOptions E zs os := by
  cases h with
  | nil =>
    constructor
    · rintro ⟨l, h, rfl⟩; cases h; exact .nil
    · intro h; cases h; exact ⟨[], rfl, rfl⟩
  | cons y z ys zs h1 h2 =>
    simp only [MYaml.depthL] at hn
    have hy := fun o => sOpt_as (E := E) h1 n (by omega) o
    have ih := fun os => optList_as (E := E) h2 n (by omega) os
    constructor
    · rintro ⟨l, h, rfl⟩
      unfold allSome at h
      split at h
      · rename_i o l' ho hl
        cases h
        have ho := (hy o).1 ho
        have hl := (ih _).1 ⟨l', hl, rfl⟩
        cases o with
        | none => obtain ⟨t, rfl⟩ := ho; exact .null t _ _ hl
        | some o => exact .option _ _ _ _ ho hl
      · cases h
    · intro h
      cases h with
      | null t _ _ h =>
        obtain ⟨l, hl, rfl⟩ := (ih _).2 h
        refine ⟨none :: l, ?_, rfl⟩
        simp only [allSome, hl, (hy none).2 ⟨t, rfl⟩]
      | option _ o _ os h1 h =>
        obtain ⟨l, hl, rfl⟩ := (ih _).2 h
        refine ⟨some o :: l, ?_, rfl⟩
        simp only [allSome, hl, (hy (some o)).2 h1]
termination_by ys.length

theorem opts_as {E : SchemaEnv} {x : Option MYaml} {p : Option Yaml} (h : FieldAs x p) (n : Nat) (hn : ∀ y, x = some y → y.depth ≤ n) (os : List Opt) : atField (fun y _ => sOpts E n y) x [] = some os ↔ OptionsIs E p os := by
  cases h with
  | none =>
    constructor
    · intro h; cases h; exact .absent
    · intro h; cases h; rfl
  | some y z h =>
    show sOpts E n y = some os ↔ _
    have hn := hn y rfl
    cases h with
    | plain t v =>
      cases v with
      | null =>
        constructor
        · intro h; simp only [sOpts] at h; cases h; exact .null t
        · intro h; cases h; simp [sOpts]
      | _ =>
        constructor
        · intro h; simp [sOpts] at h
        · intro h; cases h
    | seq ys zs h =>
      simp only [MYaml.depth] at hn
      obtain ⟨m, rfl⟩ : ∃ m, n = m + 1 := ⟨n - 1, by omega⟩
      simp only [sOpts, Option.map_eq_some_iff]
      rw [optList_as h m (by omega) os]
      constructor
      · intro h; exact .seq _ _ h
      · intro h; cases h; assumption
    | _ =>
      constructor
      · intro h; simp [sOpts] at h
      · intro h; cases h

theorem sProc_as {E : SchemaEnv} {y : MYaml} {z : Yaml} (h : Expands y z) (n : Nat) (hn : y.depth ≤ n) (p : Proc) : sProc E n y = some p ↔ IsProc E z p := by
  have mapCase : ∀ {es : List (MYaml × MYaml)} {z : Yaml}, Expands (.map es) z → (MYaml.map es).depth ≤ n → (sProc E n (.map es) = some p ↔ IsProc E z p) := by
    intro es z h hn
    simp only [MYaml.depth] at hn
    obtain ⟨m, rfl⟩ : ∃ m, n = m + 1 := ⟨n - 1, by omega⟩
    simp only [sProc]
    obtain ⟨fs, rfl, ⟨hv, hk⟩ | ⟨xs, hv, v, hd⟩⟩ := names_view h
    · rw [hv]
      constructor
      · intro h; cases h
      · intro h; cases h with
        | map _ _ _ _ hk' => exact absurd hk'.1 hk
    · rw [hv]
      show sProcFields E m xs {} = some p ↔ _
      rw [sProcFields_iff v.nodup, struct_keys v, field_iff v (lit "description") fun q hq => str_as hq p.description, field_iff v (lit "configuration") fun q hq => opts_as hq m (fun y hy => Nat.le_trans (xFind_deep hd _ y hy) (by omega)) p.configuration]
      constructor
      · rintro ⟨hk, ⟨a, ha, ha'⟩, ⟨b, hb, hb'⟩⟩
        exact .map fs a b p hk ha ha' hb hb'
      · intro h
        cases h with
        | map _ a b _ hk ha ha' hb hb' => exact ⟨hk, ⟨a, ha, ha'⟩, ⟨b, hb, hb'⟩⟩
  cases h with
  | plain t v =>
    cases v with
    | null =>
      constructor
      · intro h; simp only [sProc] at h; cases h; exact .null t
      · intro h; cases h; simp [sProc]
    | _ =>
      constructor
      · intro h; simp [sProc] at h
      · intro h; cases h
  | map es fs h => exact mapCase (.map es fs h) hn
  | merged es names under hm hc hd h hv => exact mapCase (.merged es names under hm hc hd h hv) hn
  | _ =>
    constructor
    · intro h; simp [sProc] at h
    · intro h; cases h

theorem allSnd_some {α β : Type} {f : α → Option β} {xs : List (Bytes × α)} {ps : List (Bytes × β)} (h : allSnd f xs = some ps) :
    ps.map (·.1) = xs.map (·.1) ∧ (∀ n p, (n, p) ∈ ps → ∃ y, (n, y) ∈ xs ∧ f y = some p) ∧ ∀ n y, (n, y) ∈ xs → ∃ p, (n, p) ∈ ps ∧ f y = some p := by
  induction xs generalizing ps with
  | nil => cases h; exact ⟨rfl, fun n p h => (by cases h), fun n p h => (by cases h)⟩
  | cons x xs ih =>
    obtain ⟨n, y⟩ := x
    unfold allSnd allSome at h
    split at h
    · rename_i q ps' hq hps
      cases h
      obtain ⟨p, hp, he⟩ := Option.map_eq_some_iff.1 hq
      cases he
      obtain ⟨h1, h2, h3⟩ := ih hps
      refine ⟨by simp [h1], ?_, ?_⟩
      · intro m q hm
        rcases List.mem_cons.1 hm with hm | hm
        · cases hm; exact ⟨y, List.mem_cons_self .., hp⟩
        · obtain ⟨w, hw, hf⟩ := h2 m q hm
          exact ⟨w, List.mem_cons_of_mem _ hw, hf⟩
      · intro m q hm
        rcases List.mem_cons.1 hm with hm | hm
        · cases hm; exact ⟨p, List.mem_cons_self .., hp⟩
        · obtain ⟨w, hw, hf⟩ := h3 m q hm
          exact ⟨w, List.mem_cons_of_mem _ hw, hf⟩
    · cases h

theorem allSnd_total {α β : Type} {f : α → Option β} {xs : List (Bytes × α)} (h : ∀ n y, (n, y) ∈ xs → ∃ p, f y = some p) : ∃ ps, allSnd f xs = some ps := by
  induction xs with
  | nil => exact ⟨[], rfl⟩
  | cons x xs ih =>
    obtain ⟨n, y⟩ := x
    obtain ⟨p, hp⟩ := h n y (List.mem_cons_self ..)
    obtain ⟨ps, hps⟩ := ih fun n y hm => h n y (List.mem_cons_of_mem _ hm)
    refine ⟨(n, p) :: ps, ?_⟩
    unfold allSnd at hps ⊢
    simp only [allSome, hp, hps, Option.map_some]

theorem nodup_of_keys {β : Type} {ps : List (Bytes × β)} (h : (ps.map (·.1)).Nodup) : ps.Nodup := by
  unfold List.Nodup at h ⊢
  rw [List.pairwise_map] at h
  exact h.imp fun hab he => hab (by rw [he])

theorem procMap_as {E : SchemaEnv} {y : MYaml} {z : Yaml} (h : Expands y z) (n : Nat) (hn : y.depth ≤ n) :
    (∀ m, sProcMap E n y = some m → IsProcMap E z m) ∧ ∀ m, IsProcMap E z m → ∃ m', sProcMap E n y = some m' ∧ m'.Perm m := by
  have mapCase : ∀ {es : List (MYaml × MYaml)} {z : Yaml}, Expands (.map es) z → (MYaml.map es).depth ≤ n → (∀ m, sProcMap E n (.map es) = some m → IsProcMap E z m) ∧ ∀ m, IsProcMap E z m → ∃ m', sProcMap E n (.map es) = some m' ∧ m'.Perm m := by
    intro es z h hn
    simp only [MYaml.depth] at hn
    obtain ⟨k, rfl⟩ : ∃ k, n = k + 1 := ⟨n - 1, by omega⟩
    simp only [sProcMap]
    obtain ⟨fs, rfl, ⟨hv, hk⟩ | ⟨xs, hv, v, hd⟩⟩ := names_view h
    · rw [hv]
      refine ⟨fun m h => (by cases h), fun m h => ?_⟩
      cases h with
      | map _ _ hk' => exact absurd hk' hk
    · rw [hv]
      show (∀ m, allSnd (sProc E k) xs = some m → _) ∧ ∀ m, _ → ∃ m', allSnd (sProc E k) xs = some m' ∧ _
      have proc : ∀ {a : Bytes} {y : MYaml} {z : Yaml}, (a, y) ∈ xs → UnderName fs a (some z) → ∀ p, sProc E k y = some p ↔ IsProc E z p := by
        intro a y z hy hz p
        obtain ⟨z', hz', he⟩ := v.fwd a y hy
        cases under_unique v.keys.1 hz hz'
        exact sProc_as he k (Nat.le_trans (hd a y hy) (by omega)) p
      refine ⟨fun m hm => ?_, fun m hm => ?_⟩
      · obtain ⟨h1, h2, h3⟩ := allSnd_some hm
        refine .map fs m v.keys (h1 ▸ v.nodup) ?_ ?_
        · intro a p ha
          obtain ⟨y, hy, hp⟩ := h2 a p ha
          obtain ⟨z, hz, _⟩ := v.fwd a y hy
          exact ⟨z, hz, (proc hy hz p).1 hp⟩
        · intro a z hz
          obtain ⟨y, hy, _⟩ := v.bwd a z hz
          obtain ⟨p, hp, _⟩ := h3 a y hy
          exact ⟨p, hp⟩
      · cases hm with
        | map _ _ hk hnd g1 g2 =>
          have each : ∀ a y, (a, y) ∈ xs → ∃ p, (a, p) ∈ m ∧ sProc E k y = some p := by
            intro a y hy
            obtain ⟨z, hz, _⟩ := v.fwd a y hy
            obtain ⟨p, hp⟩ := g2 a z hz
            obtain ⟨z', hz', hi⟩ := g1 a p hp
            exact ⟨p, hp, (proc hy hz' p).2 hi⟩
          obtain ⟨ps, hps⟩ := allSnd_total (f := sProc E k) (xs := xs) fun a y hy => (each a y hy).imp fun p hp => hp.2
          refine ⟨ps, hps, ?_⟩
          obtain ⟨h1, h2, h3⟩ := allSnd_some hps
          rw [List.perm_ext_iff_of_nodup (nodup_of_keys (h1 ▸ v.nodup)) (nodup_of_keys hnd)]
          rintro ⟨a, p⟩
          constructor
          · intro ha
            obtain ⟨y, hy, hp⟩ := h2 a p ha
            obtain ⟨p', hp', he⟩ := each a y hy
            rw [hp] at he; cases he
            exact hp'
          · intro ha
            obtain ⟨z, hz, hi⟩ := g1 a p ha
            obtain ⟨y, hy, _⟩ := v.bwd a z hz
            obtain ⟨p', hp', he⟩ := h3 a y hy
            rw [(proc hy hz p).2 hi] at he; cases he
            exact hp'
  cases h with
  | plain t v =>
    cases v with
    | null =>
      refine ⟨fun m h => ?_, fun m h => ?_⟩
      · simp only [sProcMap] at h; cases h; exact .null t
      · cases h; exact ⟨[], by simp [sProcMap], .refl _⟩
    | _ => exact ⟨fun m h => by simp [sProcMap] at h, fun m h => by cases h⟩
  | map es fs h => exact mapCase (.map es fs h) hn
  | merged es names under hm hc hd h hv => exact mapCase (.merged es names under hm hc hd h hv) hn
  | _ => exact ⟨fun m h => by simp [sProcMap] at h, fun m h => by cases h⟩

theorem procMaps_as {E : SchemaEnv} {ys : List MYaml} {zs : List Yaml} (h : ExpandsL ys zs) (n : Nat) (hn : MYaml.depthL ys ≤ n) :
    (∀ s, allSome (sProcMap E n) ys = some s → AreProcMaps E zs s) ∧ ∀ s, AreProcMaps E zs s → ∃ s', allSome (sProcMap E n) ys = some s' ∧ SameMaps s' s := by
  cases h with
  | nil =>
    refine ⟨fun s h => ?_, fun s h => ?_⟩
    · cases h; exact .nil
    · cases h; exact ⟨[], rfl, .nil⟩
  | cons y z ys zs h1 h2 =>
    simp only [MYaml.depthL] at hn
    obtain ⟨a1, a2⟩ := procMap_as (E := E) h1 n (by omega)
    obtain ⟨b1, b2⟩ := procMaps_as (E := E) h2 n (by omega)
    refine ⟨fun s h => ?_, fun s h => ?_⟩
    · unfold allSome at h
      split at h
      · rename_i m s' hm hs
        cases h
        exact .cons _ _ _ _ (a1 _ hm) (b1 _ hs)
      · cases h
    · cases h with
      | cons _ m _ s h1 h2 =>
        obtain ⟨m', hm, hp⟩ := a2 _ h1
        obtain ⟨s', hs, hq⟩ := b2 _ h2
        exact ⟨m' :: s', by simp only [allSome, hm, hs], .cons _ _ _ _ hp hq⟩
termination_by ys.length

theorem procs_as {E : SchemaEnv} {x : Option MYaml} {p : Option Yaml} (h : FieldAs x p) (n : Nat) (hn : ∀ y, x = some y → y.depth ≤ n) :
    (∀ s, atField (fun y _ => sProcs E n y) x [] = some s → ProcsIs E p s) ∧ ∀ s, ProcsIs E p s → ∃ s', atField (fun y _ => sProcs E n y) x [] = some s' ∧ SameMaps s' s := by
  cases h with
  | none =>
    refine ⟨fun s h => ?_, fun s h => ?_⟩
    · cases h; exact .absent
    · cases h; exact ⟨[], rfl, .nil⟩
  | some y z h =>
    show (∀ s, sProcs E n y = some s → _) ∧ ∀ s, _ → ∃ s', sProcs E n y = some s' ∧ _
    have hn := hn y rfl
    cases h with
    | plain t v =>
      cases v with
      | null =>
        refine ⟨fun s h => ?_, fun s h => ?_⟩
        · simp only [sProcs] at h; cases h; exact .null t
        · cases h; exact ⟨[], by simp [sProcs], .nil⟩
      | _ => exact ⟨fun m h => by simp [sProcs] at h, fun m h => by cases h⟩
    | seq ys zs h =>
      simp only [MYaml.depth] at hn
      obtain ⟨m, rfl⟩ : ∃ m, n = m + 1 := ⟨n - 1, by omega⟩
      simp only [sProcs]
      obtain ⟨a, b⟩ := procMaps_as (E := E) h m (by omega)
      refine ⟨fun s h => .seq _ _ (a s h), fun s h => ?_⟩
      cases h with
      | seq _ _ h => exact b s h
    | _ => exact ⟨fun m h => by simp [sProcs] at h, fun m h => by cases h⟩

theorem common_as {x : Option MYaml} {p : Option Yaml} (h : FieldAs x p) (n : Nat) (hn : ∀ y, x = some y → y.depth ≤ n) : atField (fun y _ => sCommon n y) x () = some () ↔ CommonOk p := by
  cases h with
  | none => exact ⟨fun _ => .absent, fun _ => rfl⟩
  | some y z h =>
    show sCommon n y = some () ↔ _
    have hn := hn y rfl
    have mapCase : ∀ {es : List (MYaml × MYaml)} {z : Yaml}, Expands (.map es) z → (MYaml.map es).depth ≤ n → (sCommon n (.map es) = some () ↔ CommonOk (some z)) := by
      intro es z h hn
      simp only [MYaml.depth] at hn
      obtain ⟨k, rfl⟩ : ∃ k, n = k + 1 := ⟨n - 1, by omega⟩
      simp only [sCommon]
      obtain ⟨fs, rfl, ⟨hv, hk⟩ | ⟨xs, hv, v, hd⟩⟩ := names_view h
      · rw [hv]
        constructor
        · intro h; cases h
        · intro h; cases h with
          | map _ hk' => exact absurd hk' hk
      · rw [hv]
        show (allSnd (mAny k) xs).map _ = _ ↔ _
        have anyAs : ∀ {a : Bytes} {y : MYaml} {z : Yaml}, (a, y) ∈ xs → UnderName fs a (some z) → ∀ w, mAny k y = some w ↔ IsAny z w := by
          intro a y z hy hz w
          obtain ⟨z', hz', he⟩ := v.fwd a y hy
          cases under_unique v.keys.1 hz hz'
          rw [(read_as he k (Nat.le_trans (hd a y hy) (by omega))).any, yAny_iff]
        constructor
        · intro h
          obtain ⟨ps, hps, _⟩ := Option.map_eq_some_iff.1 h
          refine .map fs v.keys fun a z hz => ?_
          obtain ⟨y, hy, _⟩ := v.bwd a z hz
          obtain ⟨p, _, hp⟩ := (allSnd_some hps).2.2 a y hy
          exact ⟨p, (anyAs hy hz p).1 hp⟩
        · intro h
          cases h with
          | map _ hk h =>
            obtain ⟨ps, hps⟩ := allSnd_total (f := mAny k) (xs := xs) fun a y hy => by
              obtain ⟨z, hz, _⟩ := v.fwd a y hy
              obtain ⟨w, hw⟩ := h a z hz
              exact ⟨w, (anyAs hy hz w).2 hw⟩
            rw [hps]; rfl
    cases h with
    | plain t v =>
      cases v with
      | null => exact ⟨fun _ => .null t, fun _ => by simp [sCommon]⟩
      | _ =>
        constructor
        · intro h; simp [sCommon] at h
        · intro h; cases h
    | map es fs h => exact mapCase (.map es fs h) hn
    | merged es names under hm hc hd h hv => exact mapCase (.merged es names under hm hc hd h hv) hn
    | _ =>
      constructor
      · intro h; simp [sCommon] at h
      · intro h; cases h

/-! ## The document -/

theorem schema_as {E : SchemaEnv} {y : MYaml} {z : Yaml} (h : Expands y z) :
    (decodeSchema E y = some none ↔ IsNull z) ∧ (∀ s, decodeSchema E y = some (some s) → IsSchema E z s) ∧ ∀ s, IsSchema E z s → ∃ s', decodeSchema E y = some (some s') ∧ SameMaps s' s := by
  have mapCase : ∀ {es : List (MYaml × MYaml)} {z : Yaml}, Expands (.map es) z → (decodeSchema E (.map es) = some none ↔ IsNull z) ∧ (∀ s, decodeSchema E (.map es) = some (some s) → IsSchema E z s) ∧ ∀ s, IsSchema E z s → ∃ s', decodeSchema E (.map es) = some (some s') ∧ SameMaps s' s := by
    intro es z h
    simp only [decodeSchema]
    obtain ⟨fs, rfl, ⟨hv, hk⟩ | ⟨xs, hv, v, hd⟩⟩ := names_view h
    · rw [hv]
      refine ⟨⟨fun h => (by cases h), ?_⟩, fun s h => (by cases h), fun s h => ?_⟩
      · rintro ⟨t, h⟩; cases h
      · obtain ⟨fs', _, _, h, hk', _⟩ := h
        cases h
        exact absurd hk'.1 hk
    · rw [hv]
      show ((sTopFields E (MYaml.depthE es) xs []).map some = _ ↔ _) ∧ (∀ s, (sTopFields E (MYaml.depthE es) xs []).map some = _ → _) ∧ ∀ s, _ → ∃ s', (sTopFields E (MYaml.depthE es) xs []).map some = _ ∧ _
      refine ⟨⟨fun h => ?_, ?_⟩, fun s h => ?_, fun s h => ?_⟩
      · obtain ⟨_, _, h⟩ := Option.map_eq_some_iff.1 h
        cases h
      · rintro ⟨t, h⟩; cases h
      · obtain ⟨_, h, he⟩ := Option.map_eq_some_iff.1 h
        cases he
        obtain ⟨hk, hc, hp⟩ := (sTopFields_iff v.nodup _ _).1 h
        obtain ⟨c, hc1, hc2⟩ := v.field (lit "common_fields")
        obtain ⟨p, hp1, hp2⟩ := v.field (lit "processors")
        exact ⟨fs, c, p, rfl, (struct_keys v _).1 hk, hc1, (common_as hc2 _ (xFind_deep hd _)).1 hc, hp1, (procs_as hp2 _ (xFind_deep hd _)).1 s hp⟩
      · obtain ⟨fs', c, p, h, hk, hc, hc', hp, hp'⟩ := h
        cases h
        obtain ⟨c1, hc1, hc2⟩ := v.field (lit "common_fields")
        obtain ⟨p1, hp1, hp2⟩ := v.field (lit "processors")
        cases under_unique v.keys.1 hc hc1
        cases under_unique v.keys.1 hp hp1
        obtain ⟨s', hs, hm⟩ := (procs_as hp2 _ (xFind_deep hd _)).2 s hp'
        exact ⟨s', by rw [(sTopFields_iff v.nodup _ _).2 ⟨(struct_keys v _).2 hk, (common_as hc2 _ (xFind_deep hd _)).2 hc', hs⟩]; rfl, hm⟩
  have no : ∀ {y : MYaml} {z : Yaml}, (¬ ∃ t, z = .plain t .null) → (¬ ∃ es, z = .map es) → decodeSchema E y = none →
      (decodeSchema E y = some none ↔ IsNull z) ∧ (∀ s, decodeSchema E y = some (some s) → IsSchema E z s) ∧ ∀ s, IsSchema E z s → ∃ s', decodeSchema E y = some (some s') ∧ SameMaps s' s := by
    intro y z h1 h2 h
    rw [h]
    refine ⟨⟨fun h => (by cases h), fun h => absurd h h1⟩, fun s h => (by cases h), fun s h => ?_⟩
    obtain ⟨es, _, _, he, _⟩ := h
    exact absurd ⟨es, he⟩ h2
  cases h with
  | plain t v =>
    by_cases hv : v = .null
    · subst hv
      refine ⟨⟨fun _ => ⟨t, rfl⟩, fun _ => rfl⟩, fun s h => (by cases h), fun s h => ?_⟩
      obtain ⟨es, _, _, he, _⟩ := h
      cases he
    · exact no (by rintro ⟨_, h⟩; cases h; exact hv rfl) (by rintro ⟨_, h⟩; cases h) (by cases v <;> first | exact absurd rfl hv | rfl)
  | map es fs h => exact mapCase (.map es fs h)
  | merged es names under hm hc hd h hv => exact mapCase (.merged es names under hm hc hd h hv)
  | _ => exact no (by rintro ⟨_, h⟩; cases h) (by rintro ⟨_, h⟩; cases h) rfl

theorem order_same {s s' : Schema} (h : SameMaps s' s) {xs : List (Bytes × Proc)} (ho : Order s' xs) : Order s xs := by
  induction h generalizing xs with
  | nil => exact ho
  | cons m m' s s' hp _ ih =>
    cases ho with
    | cons h1 h2 => exact .cons (h1.trans hp) (ih h2)

theorem picked_same {s s' : Schema} (h : SameMaps s' s) {xs : List (Bytes × Proc)} (ho : Picked s' xs) : Picked s xs := by
  induction h generalizing xs with
  | nil => exact ho
  | cons m m' s s' hp _ ih =>
    cases ho with
    | empty h =>
      cases hp.nil_eq
      exact .empty (ih h)
    | pick hm hs h => exact .pick (hp.mem_iff.1 hm) hs (ih h)

theorem same_symm {s s' : Schema} (h : SameMaps s' s) : SameMaps s s' := by
  induction h with
  | nil => exact .nil
  | cons m m' s s' hp _ ih => exact .cons _ _ _ _ hp.symm ih

/-- The order of the entries of the maps does not matter to the generators. -/
theorem main_same {s s' : Schema} (h : SameMaps s' s) (E : GenEnv) (fs fs' : Files) (ok : Bool) : Main E fs s' fs' ok ↔ Main E fs s fs' ok :=
  ⟨fun ⟨xs, h1, h2⟩ => ⟨xs, order_same h h1, h2⟩, fun ⟨xs, h1, h2⟩ => ⟨xs, order_same (same_symm h) h1, h2⟩⟩

theorem docs_same {s s' : Schema} (h : SameMaps s' s) (intro text : Bytes) : Docs intro s' text ↔ Docs intro s text :=
  ⟨fun ⟨ps, l, h1, h2⟩ => ⟨ps, l, picked_same h h1, h2⟩, fun ⟨ps, l, h1, h2⟩ => ⟨ps, l, picked_same (same_symm h) h1, h2⟩⟩

/-- C95: what the code generator does with a document: if it stands for a schema, then what it does with that schema; it crashes on null, and refuses everything else, and then it leaves all files as they are. -/
theorem generate_schema {S : SchemaEnv} {parse : Bytes → Option (Option MYaml)} {E : GenEnv} {bs : Bytes} {y : MYaml} {z : Yaml} (hp : parse bs = some (some y)) (h : Expands y z) (fs fs' : Files) (e : End) :
    Generate S parse E (some bs) fs fs' e ↔ (e = .done ∧ ∃ s, IsSchema S z s ∧ Main E fs s fs' true) ∨ (e = .fatal ∧ ∃ s, IsSchema S z s ∧ Main E fs s fs' false) ∨ (e = .crash ∧ fs' = fs ∧ IsNull z) ∨
      (e = .fatal ∧ fs' = fs ∧ ¬ IsNull z ∧ ¬ ∃ s, IsSchema S z s) := by
  obtain ⟨h1, h2, h3⟩ := schema_as (E := S) h
  have hr : readProcessors S parse (some bs) = decodeSchema S y := by simp only [readProcessors, hp]
  constructor
  · intro g
    cases g with
    | unread g =>
      rw [hr] at g
      refine .inr (.inr (.inr ⟨rfl, rfl, ?_, ?_⟩))
      · intro hz; rw [h1.2 hz] at g; cases g
      · rintro ⟨s, hs⟩
        obtain ⟨s', hs', _⟩ := h3 s hs
        rw [hs'] at g; cases g
    | null g => rw [hr] at g; exact .inr (.inr (.inl ⟨rfl, rfl, h1.1 g⟩))
    | failed g hm => rw [hr] at g; exact .inr (.inl ⟨rfl, _, h2 _ g, hm⟩)
    | done g hm => rw [hr] at g; exact .inl ⟨rfl, _, h2 _ g, hm⟩
  · rintro (⟨rfl, s, hs, hm⟩ | ⟨rfl, s, hs, hm⟩ | ⟨rfl, rfl, hz⟩ | ⟨rfl, rfl, hz, hs⟩)
    · obtain ⟨s', hs', hq⟩ := h3 s hs
      exact .done (hr.trans hs') ((main_same hq ..).2 hm)
    · obtain ⟨s', hs', hq⟩ := h3 s hs
      exact .failed (hr.trans hs') ((main_same hq ..).2 hm)
    · exact .null (hr.trans (h1.2 hz))
    · refine .unread (hr.trans ?_)
      cases hd : decodeSchema S y with
      | none => rfl
      | some o =>
        cases o with
        | none => exact absurd (h1.1 hd) hz
        | some s => exact absurd ⟨s, h2 s hd⟩ hs

/-- C95: the same for the documentation generator. -/
theorem docs_schema {S : SchemaEnv} {parse : Bytes → Option (Option MYaml)} {intro : Bytes} {bs : Bytes} {y : MYaml} {z : Yaml} (hp : parse bs = some (some y)) (h : Expands y z) (out : Option Bytes) (e : End) :
    GenerateDocs S parse intro (some bs) out e ↔ (e = .done ∧ ∃ s text, out = some text ∧ IsSchema S z s ∧ Docs intro s text) ∨ (e = .crash ∧ out = none ∧ IsNull z) ∨ (e = .fatal ∧ out = none ∧ ¬ IsNull z ∧ ¬ ∃ s, IsSchema S z s) := by
  obtain ⟨h1, h2, h3⟩ := schema_as (E := S) h
  have hr : readProcessors S parse (some bs) = decodeSchema S y := by simp only [readProcessors, hp]
  constructor
  · intro g
    cases g with
    | unread g =>
      rw [hr] at g
      refine .inr (.inr ⟨rfl, rfl, ?_, ?_⟩)
      · intro hz; rw [h1.2 hz] at g; cases g
      · rintro ⟨s, hs⟩
        obtain ⟨s', hs', _⟩ := h3 s hs
        rw [hs'] at g; cases g
    | null g => rw [hr] at g; exact .inr (.inl ⟨rfl, rfl, h1.1 g⟩)
    | done g hm => rw [hr] at g; exact .inl ⟨rfl, _, _, rfl, h2 _ g, hm⟩
  · rintro (⟨rfl, s, text, rfl, hs, hm⟩ | ⟨rfl, rfl, hz⟩ | ⟨rfl, rfl, hz, hs⟩)
    · obtain ⟨s', hs', hq⟩ := h3 s hs
      exact .done (hr.trans hs') ((docs_same hq ..).2 hm)
    · exact .null (hr.trans (h1.2 hz))
    · refine .unread (hr.trans ?_)
      cases hd : decodeSchema S y with
      | none => rfl
      | some o =>
        cases o with
        | none => exact absurd (h1.1 hd) hz
        | some s => exact absurd ⟨s, h2 s hd⟩ hs

/-- C95: if the file cannot be read, or is not YAML, or is empty, then nothing is written. -/
theorem generate_unread {S : SchemaEnv} {parse : Bytes → Option (Option MYaml)} {E : GenEnv} {file : Option Bytes} (h : ∀ bs, file = some bs → parse bs = none ∨ parse bs = some none) (fs fs' : Files) (e : End) (intro : Bytes) (out : Option Bytes) :
    (Generate S parse E file fs fs' e ↔ fs' = fs ∧ e = .fatal) ∧ (GenerateDocs S parse intro file out e ↔ out = none ∧ e = .fatal) := by
  have hr : readProcessors S parse file = none := by
    cases file with
    | none => rfl
    | some bs => rcases h bs rfl with h | h <;> simp only [readProcessors, h]
  constructor
  · constructor
    · intro g
      cases g with
      | unread g => exact ⟨rfl, rfl⟩
      | null g => rw [hr] at g; cases g
      | failed g => rw [hr] at g; cases g
      | done g => rw [hr] at g; cases g
    · rintro ⟨rfl, rfl⟩; exact .unread hr
  · constructor
    · intro g
      cases g with
      | unread g => exact ⟨rfl, rfl⟩
      | null g => rw [hr] at g; cases g
      | done g => rw [hr] at g; cases g
    · rintro ⟨rfl, rfl⟩; exact .unread hr

/-! ## A sample: part of pkg/processor/processors.yml -/

/-- The entries of `ignore_missing`, with an anchor: processors.yml:16-23. -/
def missingOption : List (MYaml × MYaml) :=
  [(.str (lit "name"), .str (lit "ignore_missing")), (.str (lit "type"), .str (lit "bool")), (.str (lit "optional"), .plain (lit "true") (.bool true)), (.str (lit "default"), .plain (lit "false") (.bool false)), (.str (lit "description"), .str (lit "If true"))]

/-- `<<: *ignore_missing`, and an option with a default of its own. -/
def schemaSample (extra : Bytes) : MYaml := .map [
  (.str (lit "common_fields"), .map [(.str (lit "ignore_missing"), .map missingOption)]),
  (.str (lit "processors"), .seq [.map [(.str (lit "append"), .map [
    (.str (lit "description"), .str (lit "Appends")),
    (.str (lit "configuration"), .seq [
      .map [(.merge, .map missingOption)],
      .map [(.merge, .map missingOption), (.str (lit "default"), .plain (lit "1") (.int 1)), (.str extra, .str (lit "value"))],
      .plain (lit "~") .null])])]])]

/-- Texts for `true` and for 1. -/
def schemaEnv : SchemaEnv where
  boolText := fun t => if t = lit "yes" then some true else none
  print := fun v => match v with
    | .plain (.bool false) => lit "false"
    | .plain (.int 1) => lit "1"
    | _ => []

theorem schema_sample : decodeSchema schemaEnv (schemaSample (lit "name")) = some (some [[(lit "append", { description := lit "Appends", configuration := [
    { name := lit "ignore_missing", type := lit "bool", optional := true, default := some (.other (lit "false") false), description := lit "If true" },
    { name := lit "value", type := lit "bool", optional := true, default := some (.other (lit "1") true), description := lit "If true" }] })]]) := by rfl

/-- A name that is not a field is refused. -/
theorem schema_unknown : decodeSchema schemaEnv (schemaSample (lit "nam")) = none := by rfl

theorem canMerge_under {es fs : List (MYaml × MYaml)} (hf : CanMerge fs) {ts : List Bytes} (hk : es.map (·.1) = ts.map .str) (hd : ts.Nodup) (ha : lit "<<" ∉ ts) : CanMerge ((.merge, .map fs) :: es) := by
  obtain ⟨_, ⟨h1, h2⟩, h3⟩ := canMerge_of hk hd ha
  have hno : ∀ e ∈ es, e.1 ≠ .merge := by
    intro e he h
    have := List.mem_map_of_mem (f := (·.1)) he
    rw [hk] at this
    obtain ⟨t, _, ht⟩ := List.mem_map.1 this
    rw [h] at ht; cases ht
  refine .mk _ ⟨?_, List.pairwise_cons.2 ⟨?_, h2⟩⟩ ?_
  · intro e he
    rcases List.mem_cons.1 he with rfl | he
    · exact .inl rfl
    · exact h1 e he
  · intro e he h
    exact hno e he h.symm
  · intro y hy
    rcases List.mem_cons.1 hy with hy | hy
    · cases hy; exact .map _ hf
    · exact absurd rfl (hno _ hy)

theorem schema_sample_fine : (schemaSample (lit "name")).Fine := by
  have hm : CanMerge missingOption := canMerge_of (ts := [lit "name", lit "type", lit "optional", lit "default", lit "description"]) rfl (by decide) (by decide)
  have h1 : CanMerge [(.merge, .map missingOption)] := canMerge_under hm (ts := []) rfl (by decide) (by decide)
  have h2 : CanMerge [(.merge, .map missingOption), (.str (lit "default"), .plain (lit "1") (.int 1)), (.str (lit "name"), .str (lit "value"))] := canMerge_under hm (ts := [lit "default", lit "name"]) rfl (by decide) (by decide)
  simp [schemaSample, MYaml.Fine, MYaml.FineL, MYaml.FineE, missingOption]
  simp [missingOption] at h1 h2
  exact ⟨h1, h2⟩

/-- The sample meets the hypotheses of `generate_schema`, and stands for a schema. -/
theorem schema_sample_is : ∃ z s, Expands (schemaSample (lit "name")) z ∧ IsSchema schemaEnv z s ∧ s ≠ [] := by
  obtain ⟨z, hz⟩ := expands_exists schema_sample_fine
  exact ⟨z, _, hz, (schema_as hz).2.1 _ schema_sample, by simp⟩

end Gen
end Sawmill
