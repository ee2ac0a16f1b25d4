import Verif.Lemmas.ConfigEnc
/-!
# Decoding a configuration from JSON
-/

namespace Sawmill
open Rfc

/-! ## Names -/

/-- Field names are of small letters and underscores. -/
def FieldName (n : Bytes) : Prop := ∀ b ∈ n, SmallLetter b ∨ b = 95

theorem fold_byte : ∀ s b : UInt8, (SmallLetter s ∨ s = 95) → b.toNat < 128 →
    ((s = b || (let u := s &&& 0xDF; 65 ≤ u.toNat && u.toNat ≤ 90 && u = b &&& 0xDF)) = true ↔ s = b ∨ (SmallLetter s ∧ b.toNat + 32 = s.toNat)) := by
  have key : ∀ i j : Fin 256, (97 ≤ i.val ∧ i.val ≤ 122 ∨ i.val = 95) → j.val < 128 →
      ((UInt8.ofNat i.val = UInt8.ofNat j.val || (let u := UInt8.ofNat i.val &&& 0xDF; 65 ≤ u.toNat && u.toNat ≤ 90 && u = UInt8.ofNat j.val &&& 0xDF)) = true ↔ i.val = j.val ∨ ((97 ≤ i.val ∧ i.val ≤ 122) ∧ j.val + 32 = i.val)) := by
    decide +kernel
  intro s b hs hb
  have := key ⟨s.toNat, s.toNat_lt⟩ ⟨b.toNat, b.toNat_lt⟩ (by
    rcases hs with hs | rfl
    · exact .inl hs
    · exact .inr rfl) hb
  simp only [UInt8.ofNat_toNat] at this
  rw [this, UInt8.toNat_inj]
  exact Iff.rfl

theorem foldEq_iff : ∀ (n k : Bytes), FieldName n → (foldEq n k = true ↔ Folds n k)
  | [], k, _ => by
    simp only [foldEq, List.isEmpty_iff]
    constructor
    · rintro rfl; exact .nil
    · intro h; cases h; rfl
  | s :: ss, [], _ => by
    simp only [foldEq, Bool.false_eq_true, false_iff]
    intro h; cases h
  | s :: ss, b :: r, hn => by
    have ih := fun r => foldEq_iff ss r (fun x hx => hn x (by simp [hx]))
    have hs : SmallLetter s ∨ s = 95 := hn s (by simp)
    have hs128 : s.toNat < 128 := by
      rcases hs with hs | rfl
      · have := hs.2; omega
      · decide
    rw [foldEq]
    by_cases hb : b.toNat < 128
    · rw [if_pos hb]
      have hc := fold_byte s b hs hb
      constructor
      · intro h
        rw [Bool.and_eq_true] at h
        rcases hc.1 h.1 with rfl | ⟨h1, h2⟩
        · exact .same _ _ _ ((ih r).1 h.2)
        · exact .upper _ _ _ _ h1 h2 ((ih r).1 h.2)
      · intro h
        rw [Bool.and_eq_true]
        generalize hnn : s :: ss = nn at h
        generalize hkk : b :: r = kk at h
        cases h with
        | nil => simp at hnn
        | same b' n' k' h =>
          simp only [List.cons.injEq] at hnn hkk
          obtain ⟨rfl, rfl⟩ := hnn
          obtain ⟨rfl, rfl⟩ := hkk
          exact ⟨hc.2 (.inl rfl), (ih _).2 h⟩
        | upper b' c' n' k' h1 h2 h =>
          simp only [List.cons.injEq] at hnn hkk
          obtain ⟨rfl, rfl⟩ := hnn
          obtain ⟨rfl, rfl⟩ := hkk
          exact ⟨hc.2 (.inr ⟨h1, h2⟩), (ih _).2 h⟩
        | longS n' k' h =>
          simp only [List.cons.injEq] at hkk
          rw [hkk.1] at hb
          exact absurd hb (by decide)
        | kelvin n' k' h =>
          simp only [List.cons.injEq] at hkk
          rw [hkk.1] at hb
          exact absurd hb (by decide)
    · rw [if_neg hb]
      have nsame : s ≠ b := by rintro rfl; exact hb hs128
      have nup : ¬ (SmallLetter s ∧ b.toNat + 32 = s.toNat) := by rintro ⟨h1, h2⟩; have := h1.2; omega
      have h83 : s ≠ 83 := by
        rintro rfl
        rcases hs with hs | hs
        · exact absurd hs.1 (by decide)
        · exact absurd hs (by decide)
      have h75 : s ≠ 75 := by
        rintro rfl
        rcases hs with hs | hs
        · exact absurd hs.1 (by decide)
        · exact absurd hs (by decide)
      have back : Folds (s :: ss) (b :: r) → (s = 115 ∧ ∃ r', b :: r = 0xC5 :: 0xBF :: r' ∧ Folds ss r') ∨ (s = 107 ∧ ∃ r', b :: r = 0xE2 :: 0x84 :: 0xAA :: r' ∧ Folds ss r') := by
        intro h
        generalize hnn : s :: ss = nn at h
        generalize hkk : b :: r = kk at h
        cases h with
        | nil => simp at hnn
        | same b' n' k' h => simp only [List.cons.injEq] at hnn hkk; exact absurd (hnn.1.trans hkk.1.symm) nsame
        | upper b' c' n' k' h1 h2 h => simp only [List.cons.injEq] at hnn hkk; rw [← hnn.1] at h1 h2; rw [← hkk.1] at h2; exact absurd ⟨h1, h2⟩ nup
        | longS n' k' h => simp only [List.cons.injEq] at hnn; exact .inl ⟨hnn.1, k', rfl, hnn.2 ▸ h⟩
        | kelvin n' k' h => simp only [List.cons.injEq] at hnn; exact .inr ⟨hnn.1, k', rfl, hnn.2 ▸ h⟩
      by_cases h115 : s = 115
      · rw [if_pos (by simp [h115])]
        subst h115
        constructor
        · intro h
          split at h
          · rename_i r' he
            rw [he]
            exact .longS _ _ ((ih r').1 h)
          · simp at h
        · intro h
          rcases back h with ⟨_, r', he, hf⟩ | ⟨h, _⟩
          · rw [he]; exact (ih r').2 hf
          · exact absurd h (by decide)
      · rw [if_neg (by simp [h115, h83])]
        by_cases h107 : s = 107
        · rw [if_pos (by simp [h107])]
          subst h107
          constructor
          · intro h
            split at h
            · rename_i r' he
              rw [he]
              exact .kelvin _ _ ((ih r').1 h)
            · simp at h
          · intro h
            rcases back h with ⟨h, _⟩ | ⟨_, r', he, hf⟩
            · exact absurd h (by decide)
            · rw [he]; exact (ih r').2 hf
        · rw [if_neg (by simp [h107, h75])]
          simp only [Bool.false_eq_true, false_iff]
          intro h
          rcases back h with ⟨h, _⟩ | ⟨h, _⟩
          · exact h115 h
          · exact h107 h

theorem folds_self (n : Bytes) : Folds n n := by
  induction n with
  | nil => exact .nil
  | cons b n ih => exact .same b n n ih

/-- A name stands for at most one field. -/
theorem folds_unique {n m k : Bytes} (hn : FieldName n) (hm : FieldName m) (h1 : Folds n k) (h2 : Folds m k) : n = m := by
  induction h1 generalizing m with
  | nil => cases h2; rfl
  | same b n k h ih =>
    have hb : b.toNat ≤ 122 ∧ 95 ≤ b.toNat := by
      rcases hn b (by simp) with hb | rfl
      · have := hb.1; have := hb.2; omega
      · decide
    generalize hkk : b :: k = kk at h2
    cases h2 with
    | nil => simp at hkk
    | same b' n' k' h' =>
      simp only [List.cons.injEq] at hkk
      obtain ⟨rfl, rfl⟩ := hkk
      rw [ih (fun x hx => hn x (by simp [hx])) (fun x hx => hm x (by simp [hx])) h']
    | upper b' c' n' k' hb' hc' h' =>
      simp only [List.cons.injEq] at hkk
      obtain ⟨rfl, rfl⟩ := hkk
      have := hb'.2; omega
    | longS n' k' h' =>
      simp only [List.cons.injEq] at hkk
      rw [hkk.1] at hb
      exact absurd hb.1 (by decide)
    | kelvin n' k' h' =>
      simp only [List.cons.injEq] at hkk
      rw [hkk.1] at hb
      exact absurd hb.1 (by decide)
  | upper b c n k hb hc h ih =>
    generalize hkk : c :: k = kk at h2
    have hb2 := hb.2
    cases h2 with
    | nil => simp at hkk
    | same b' n' k' h' =>
      simp only [List.cons.injEq] at hkk
      obtain ⟨rfl, rfl⟩ := hkk
      rcases hm c (by simp) with hcl | rfl
      · have := hcl.1; omega
      · have : b.toNat = 127 := by rw [← hc]; decide
        omega
    | upper b' c' n' k' hb' hc' h' =>
      simp only [List.cons.injEq] at hkk
      obtain ⟨rfl, rfl⟩ := hkk
      rw [ih (fun x hx => hn x (by simp [hx])) (fun x hx => hm x (by simp [hx])) h', UInt8.toNat_inj.1 (show b.toNat = b'.toNat by omega)]
    | longS n' k' h' =>
      simp only [List.cons.injEq] at hkk
      rw [hkk.1] at hc
      have : (0xC5 : UInt8).toNat = 197 := rfl
      omega
    | kelvin n' k' h' =>
      simp only [List.cons.injEq] at hkk
      rw [hkk.1] at hc
      have : (0xE2 : UInt8).toNat = 226 := rfl
      omega
  | longS n k h ih =>
    generalize hkk : (0xC5 : UInt8) :: 0xBF :: k = kk at h2
    cases h2 with
    | nil => simp at hkk
    | same b' n' k' h' =>
      simp only [List.cons.injEq] at hkk
      rcases hm b' (by simp) with hb' | hb'
      · rw [← hkk.1] at hb'; exact absurd hb'.2 (by decide)
      · rw [← hkk.1] at hb'; exact absurd hb' (by decide)
    | upper b' c' n' k' hb' hc' h' =>
      simp only [List.cons.injEq] at hkk
      rw [← hkk.1] at hc'
      have := hb'.2
      have : (0xC5 : UInt8).toNat = 197 := rfl
      omega
    | longS n' k' h' =>
      simp only [List.cons.injEq, true_and] at hkk
      subst hkk
      rw [ih (fun x hx => hn x (by simp [hx])) (fun x hx => hm x (by simp [hx])) h']
    | kelvin n' k' h' => simp at hkk
  | kelvin n k h ih =>
    generalize hkk : (0xE2 : UInt8) :: 0x84 :: 0xAA :: k = kk at h2
    cases h2 with
    | nil => simp at hkk
    | same b' n' k' h' =>
      simp only [List.cons.injEq] at hkk
      rcases hm b' (by simp) with hb' | hb'
      · rw [← hkk.1] at hb'; exact absurd hb'.2 (by decide)
      · rw [← hkk.1] at hb'; exact absurd hb' (by decide)
    | upper b' c' n' k' hb' hc' h' =>
      simp only [List.cons.injEq] at hkk
      rw [← hkk.1] at hc'
      have := hb'.2
      have : (0xE2 : UInt8).toNat = 226 := rfl
      omega
    | longS n' k' h' => simp at hkk
    | kelvin n' k' h' =>
      simp only [List.cons.injEq, true_and] at hkk
      subst hkk
      rw [ih (fun x hx => hn x (by simp [hx])) (fun x hx => hm x (by simp [hx])) h']

theorem optField_name (f : OptField) : FieldName f.name := by
  have : ∀ b ∈ f.name, (97 ≤ b.toNat ∧ b.toNat ≤ 122) ∨ b = 95 := by cases f <;> decide +kernel
  exact this

theorem cfgField_name (f : CfgField) : FieldName f.name := by
  have : ∀ b ∈ f.name, (97 ≤ b.toNat ∧ b.toNat ≤ 122) ∨ b = 95 := by cases f <;> decide +kernel
  exact this

/-- Choosing the field: the one that the name stands for. -/
theorem find_field {F : Type} (name : F → Bytes) (hname : ∀ f, FieldName (name f)) (hinj : ∀ f g, name f = name g → f = g) (fs : List F) (hfs : ∀ f, f ∈ fs) (k : Bytes) (f : F) :
    (match fs.find? fun f => decide (name f = k) with
      | some f => some f
      | none => fs.find? fun f => foldEq (name f) k) = some f ↔ Folds (name f) k := by
  constructor
  · split
    · rename_i g hg
      have := List.find?_some hg
      simp only [decide_eq_true_eq] at this
      rintro ⟨⟩
      rw [this]; exact folds_self k
    · intro h
      have := List.find?_some h
      exact (foldEq_iff _ _ (hname f)).1 this
  · intro h
    split
    · rename_i g hg
      have := List.find?_some hg
      simp only [decide_eq_true_eq] at this
      rw [hinj g f (folds_unique (hname g) (hname f) (by rw [this]; exact folds_self k) h)]
    · cases hg : fs.find? fun f => foldEq (name f) k with
      | none =>
        rw [List.find?_eq_none] at hg
        exact absurd ((foldEq_iff _ _ (hname f)).2 h) (hg f (hfs f))
      | some g =>
        have := List.find?_some hg
        rw [hinj g f (folds_unique (hname g) (hname f) ((foldEq_iff _ _ (hname g)).1 this) h)]

theorem optField_iff (k : Bytes) (f : OptField) : optField k = some f ↔ Folds f.name k := by
  have := find_field OptField.name optField_name (by intro f g; cases f <;> cases g <;> decide +kernel) [OptField.id, .cond, .onFailure] (by intro f; cases f <;> simp) k f
  rw [← this]
  unfold optField
  cases List.find? (fun f => decide (OptField.name f = k)) [OptField.id, .cond, .onFailure] <;> exact Iff.rfl

theorem cfgField_iff (k : Bytes) (f : CfgField) : cfgField k = some f ↔ Folds f.name k := by
  have := find_field CfgField.name cfgField_name (by intro f g; cases f <;> cases g <;> decide +kernel) [CfgField.id, .description, .processors, .onFailure] (by intro f; cases f <;> simp) k f
  rw [← this]
  unfold cfgField
  cases List.find? (fun f => decide (CfgField.name f = k)) [CfgField.id, .description, .processors, .onFailure] <;> exact Iff.rfl

/-! ## Fields -/

theorem fieldIs_nil {n : Bytes} {j : Option Json} (h : FieldIs [] n j) : j = none := by
  cases j with
  | none => rfl
  | some j => obtain ⟨pre, k, post, h, _⟩ := h; simp at h

theorem fieldIs_skip {es : List (Bytes × Json)} {e : Bytes × Json} {n : Bytes} {j : Option Json} (h : FieldIs (e :: es) n j) (hn : ¬ Folds n e.1) : FieldIs es n j := by
  cases j with
  | none => exact fun x hx => h x (by simp [hx])
  | some j =>
    obtain ⟨pre, k, post, h, h1, h2, h3⟩ := h
    cases pre with
    | nil =>
      simp only [List.nil_append, List.cons.injEq] at h
      rw [h.1] at hn
      exact absurd h1 hn
    | cons p pre =>
      simp only [List.cons_append, List.cons.injEq] at h
      exact ⟨pre, k, post, h.2, h1, fun x hx => h2 x (by simp [hx]), h3⟩

theorem fieldIs_hit {es : List (Bytes × Json)} {e : Bytes × Json} {n : Bytes} {j : Option Json} (h : FieldIs (e :: es) n j) (hn : Folds n e.1) : j = some e.2 ∧ FieldIs es n none := by
  cases j with
  | none => exact absurd hn (h e (by simp))
  | some j =>
    obtain ⟨pre, k, post, h, h1, h2, h3⟩ := h
    cases pre with
    | nil =>
      simp only [List.nil_append, List.cons.injEq] at h
      rw [h.1, h.2]
      exact ⟨rfl, h3⟩
    | cons p pre =>
      simp only [List.cons_append, List.cons.injEq] at h
      rw [h.1] at hn
      exact absurd hn (h2 p (by simp))

/-- A text field that may be missing. -/
def optStr (j : Option Json) (s : Bytes) : Option Bytes := match j with
  | none => some s
  | some j => decString j s

/-- A list field that may be missing. -/
def optSlice (env : JEnv) (j : Option Json) (s : List (ProcCfg JCfg) × Nat) : Option (List (ProcCfg JCfg) × Nat) := match j with
  | none => some s
  | some j => decSlice env j s

theorem decField_eq (env : JEnv) (j : Json) (f : OptField) (a : OptAcc) : decField env j (some f) a =
    match f with
    | .id => (decString j a.id).map fun s => { a with id := s }
    | .cond => (decString j a.cond).map fun s => { a with cond := s }
    | .onFailure => (decSlice env j (a.slots, a.len)).map fun s => { a with slots := s.1, len := s.2 } := by
  cases f with
  | id => cases j <;> rfl
  | cond => cases j <;> rfl
  | onFailure =>
    cases j with
    | arr js => cases js <;> rfl
    | _ => rfl

theorem decFields_eq (env : JEnv) : ∀ (es : List (Bytes × Json)) (i c f : Option Json) (a : OptAcc), FieldIs es (lit "id") i → FieldIs es (lit "if") c → FieldIs es (lit "on_failure") f →
    decFields env es a = (optStr i a.id).bind fun id => (optStr c a.cond).bind fun cond => (optSlice env f (a.slots, a.len)).bind fun s => some ⟨id, cond, s.1, s.2⟩
  | [], i, c, f, a, hi, hc, hf => by
    rw [fieldIs_nil hi, fieldIs_nil hc, fieldIs_nil hf]; rfl
  | (k, j) :: es, i, c, f, a, hi, hc, hf => by
    have n1 : lit "id" ≠ lit "if" := by decide +kernel
    have n2 : lit "id" ≠ lit "on_failure" := by decide +kernel
    have n3 : lit "if" ≠ lit "on_failure" := by decide +kernel
    have fn := optField_name
    rw [decFields]
    cases ho : optField k with
    | none =>
      have hno : ∀ f : OptField, ¬ Folds f.name k := by
        intro f h
        rw [(optField_iff k f).2 h] at ho
        simp at ho
      have : decField env j none a = some a := by cases j <;> rfl
      rw [this]
      exact decFields_eq env es i c f a (fieldIs_skip hi (hno .id)) (fieldIs_skip hc (hno .cond)) (fieldIs_skip hf (hno .onFailure))
    | some g =>
      have hg := (optField_iff k g).1 ho
      rw [decField_eq]
      cases g with
      | id =>
        obtain ⟨rfl, hi'⟩ := fieldIs_hit hi hg
        have ih := fun a => decFields_eq env es none c f a hi' (fieldIs_skip hc fun h => n1 (folds_unique (fn .id) (fn .cond) hg h)) (fieldIs_skip hf fun h => n2 (folds_unique (fn .id) (fn .onFailure) hg h))
        simp only [optStr]
        cases decString j a.id with
        | none => rfl
        | some s => simp only [Option.map_some, Option.bind_some, ih]; rfl
      | cond =>
        obtain ⟨rfl, hc'⟩ := fieldIs_hit hc hg
        have ih := fun a => decFields_eq env es i none f a (fieldIs_skip hi fun h => n1 (folds_unique (fn .id) (fn .cond) h hg)) hc' (fieldIs_skip hf fun h => n3 (folds_unique (fn .cond) (fn .onFailure) hg h))
        simp only [optStr]
        cases decString j a.cond with
        | none => simp
        | some s => simp only [Option.map_some, Option.bind_some, ih]; rfl
      | onFailure =>
        obtain ⟨rfl, hf'⟩ := fieldIs_hit hf hg
        have ih := fun a => decFields_eq env es i c none a (fieldIs_skip hi fun h => n2 (folds_unique (fn .id) (fn .onFailure) h hg)) (fieldIs_skip hc fun h => n3 (folds_unique (fn .cond) (fn .onFailure) h hg)) hf'
        simp only [optSlice]
        cases decSlice env j (a.slots, a.len) with
        | none => simp
        | some s => simp only [Option.map_some, Option.bind_some, ih]; rfl

theorem decCfgFields_eq (env : JEnv) : ∀ (es : List (Bytes × Json)) (i d p f : Option Json) (a : CfgAcc), FieldIs es (lit "id") i → FieldIs es (lit "description") d →
    FieldIs es (lit "processors") p → FieldIs es (lit "on_failure") f →
    decCfgFields env es a = (optStr i a.id).bind fun id => (optStr d a.description).bind fun desc => (optSlice env p a.procs).bind fun ps => (optSlice env f a.fails).bind fun fs => some ⟨id, desc, ps, fs⟩
  | [], i, d, p, f, a, hi, hd, hp, hf => by
    rw [fieldIs_nil hi, fieldIs_nil hd, fieldIs_nil hp, fieldIs_nil hf]; rfl
  | (k, j) :: es, i, d, p, f, a, hi, hd, hp, hf => by
    have inj : ∀ f g : CfgField, f ≠ g → f.name ≠ g.name := by intro f g; cases f <;> cases g <;> simp [CfgField.name] <;> decide +kernel
    have fn := cfgField_name
    rw [decCfgFields]
    cases ho : cfgField k with
    | none =>
      have hno : ∀ f : CfgField, ¬ Folds f.name k := by
        intro f h
        rw [(cfgField_iff k f).2 h] at ho
        simp at ho
      exact decCfgFields_eq env es i d p f a (fieldIs_skip hi (hno .id)) (fieldIs_skip hd (hno .description)) (fieldIs_skip hp (hno .processors)) (fieldIs_skip hf (hno .onFailure))
    | some g =>
      have hg := (cfgField_iff k g).1 ho
      have other : ∀ f : CfgField, f ≠ g → ¬ Folds f.name k := fun f hne h => inj f g hne (folds_unique (fn f) (fn g) h hg)
      cases g with
      | id =>
        obtain ⟨rfl, hi'⟩ := fieldIs_hit hi hg
        have ih := fun a => decCfgFields_eq env es none d p f a hi' (fieldIs_skip hd (other .description (by simp))) (fieldIs_skip hp (other .processors (by simp))) (fieldIs_skip hf (other .onFailure (by simp)))
        simp only [optStr]
        cases decString j a.id with
        | none => simp
        | some s => simp only [Option.map_some, Option.bind_some, ih]; rfl
      | description =>
        obtain ⟨rfl, hd'⟩ := fieldIs_hit hd hg
        have ih := fun a => decCfgFields_eq env es i none p f a (fieldIs_skip hi (other .id (by simp))) hd' (fieldIs_skip hp (other .processors (by simp))) (fieldIs_skip hf (other .onFailure (by simp)))
        simp only [optStr]
        cases decString j a.description with
        | none => simp
        | some s => simp only [Option.map_some, Option.bind_some, ih]; rfl
      | processors =>
        obtain ⟨rfl, hp'⟩ := fieldIs_hit hp hg
        have ih := fun a => decCfgFields_eq env es i d none f a (fieldIs_skip hi (other .id (by simp))) (fieldIs_skip hd (other .description (by simp))) hp' (fieldIs_skip hf (other .onFailure (by simp)))
        simp only [optSlice]
        cases decSlice env j a.procs with
        | none => simp
        | some s => simp only [Option.map_some, Option.bind_some, ih]; rfl
      | onFailure =>
        obtain ⟨rfl, hf'⟩ := fieldIs_hit hf hg
        have ih := fun a => decCfgFields_eq env es i d p none a (fieldIs_skip hi (other .id (by simp))) (fieldIs_skip hd (other .description (by simp))) (fieldIs_skip hp (other .processors (by simp))) hf'
        simp only [optSlice]
        cases decSlice env j a.fails with
        | none => simp
        | some s => simp only [Option.map_some, Option.bind_some, ih]; rfl

/-! ## Options of any kind -/

mutual
theorem decI_eq {env : JEnv} : ∀ (j : Json), (¬ InRange env j → decI env j = none) ∧ (InRange env j → decI env j = some (jsonVal env j))
  | .null => ⟨fun h => absurd trivial h, fun _ => rfl⟩
  | .bool _ => ⟨fun h => absurd trivial h, fun _ => rfl⟩
  | .str _ => ⟨fun h => absurd trivial h, fun _ => rfl⟩
  | .num t => by
    simp only [InRange, decI, jsonVal]
    cases env.atof t <;> simp
  | .arr js => by
    have ih := decIL_eq (env := env) js
    simp only [InRange, decI, jsonVal]
    exact ⟨fun h => by rw [ih.1 h]; rfl, fun h => by rw [ih.2 h]; rfl⟩
  | .obj es => by
    have ih := decIE_eq (env := env) es []
    simp only [InRange, decI, jsonVal]
    exact ⟨fun h => by rw [ih.1 h]; rfl, fun h => by rw [ih.2 h]; rfl⟩
theorem decIL_eq {env : JEnv} : ∀ (js : List Json), (¬ InRangeL env js → decIL env js = none) ∧ (InRangeL env js → decIL env js = some (jsonValL env js))
  | [] => ⟨fun h => absurd trivial h, fun _ => rfl⟩
  | j :: js => by
    have h1 := decI_eq (env := env) j
    have h2 := decIL_eq (env := env) js
    simp only [InRangeL, decIL, jsonValL]
    by_cases hj : InRange env j
    · by_cases hjs : InRangeL env js
      · rw [h1.2 hj, h2.2 hjs]; exact ⟨fun h => absurd ⟨hj, hjs⟩ h, fun _ => rfl⟩
      · rw [h1.2 hj, h2.1 hjs]; exact ⟨fun _ => rfl, fun h => absurd h.2 hjs⟩
    · rw [h1.1 hj]; exact ⟨fun _ => rfl, fun h => absurd h.1 hj⟩
theorem decIE_eq {env : JEnv} : ∀ (es : List (Bytes × Json)) (m : AMap Val), (¬ InRangeE env es → decIE env es m = none) ∧ (InRangeE env es → decIE env es m = some (AMap.ofEntries (jsonValE env es) m))
  | [], m => ⟨fun h => absurd trivial h, fun _ => rfl⟩
  | (k, j) :: es, m => by
    have h1 := decI_eq (env := env) j
    have h2 := fun m => decIE_eq (env := env) es m
    simp only [InRangeE, decIE, jsonValE]
    by_cases hj : InRange env j
    · rw [h1.2 hj]
      by_cases hjs : InRangeE env es
      · exact ⟨fun h => absurd ⟨hj, hjs⟩ h, fun _ => (h2 _).2 hjs⟩
      · exact ⟨fun _ => (h2 _).1 hjs, fun h => absurd h.2 hjs⟩
    · rw [h1.1 hj]; exact ⟨fun _ => rfl, fun h => absurd h.1 hj⟩
end

theorem erase_insert_self {α : Type} (m : AMap α) (k : Bytes) (v : α) (hs : AMap.Sorted m) : AMap.erase (AMap.insert m k v) k = AMap.erase m k := by
  refine AMap.ext (AMap.sorted_erase _ (AMap.sorted_insert _ _ hs)) (AMap.sorted_erase _ hs) fun q => ?_
  by_cases h : k = q
  · subst h; simp
  · rw [AMap.lookup_erase_of_ne _ h, AMap.lookup_insert_of_ne _ _ h, AMap.lookup_erase_of_ne _ h]

theorem erase_insert_ne {α : Type} (m : AMap α) (k q : Bytes) (v : α) (hs : AMap.Sorted m) (hne : q ≠ k) : AMap.erase (AMap.insert m k v) q = AMap.insert (AMap.erase m q) k v := by
  refine AMap.ext (AMap.sorted_erase _ (AMap.sorted_insert _ _ hs)) (AMap.sorted_insert _ _ (AMap.sorted_erase _ hs)) fun x => ?_
  by_cases h : q = x
  · subst h
    rw [AMap.lookup_erase_self, AMap.lookup_insert_of_ne _ _ (Ne.symm hne), AMap.lookup_erase_self]
  · rw [AMap.lookup_erase_of_ne _ h, AMap.lookup_insert, AMap.lookup_insert, AMap.lookup_erase_of_ne _ h]

theorem erase_ofEntries {α : Type} (q : Bytes) : ∀ (es : List (Bytes × α)) (m : AMap α), AMap.Sorted m →
    AMap.erase (AMap.ofEntries es m) q = AMap.ofEntries (es.filter fun e => e.1 ≠ q) (AMap.erase m q)
  | [], m, _ => rfl
  | (k, v) :: es, m, hs => by
    rw [AMap.ofEntries_cons, erase_ofEntries q es _ (AMap.sorted_insert _ _ hs)]
    by_cases h : k = q
    · subst h
      rw [erase_insert_self _ _ _ hs]
      simp
    · rw [erase_insert_ne _ _ _ _ hs (Ne.symm h)]
      simp [h, AMap.ofEntries_cons]

theorem jsonValE_filter (env : JEnv) (p : Bytes → Bool) : ∀ (es : List (Bytes × Json)), (jsonValE env es).filter (fun e => p e.1) = jsonValE env (es.filter fun e => p e.1)
  | [] => rfl
  | (k, j) :: es => by
    simp only [jsonValE, List.filter_cons]
    cases p k with
    | true => simp [jsonValE, jsonValE_filter env p es]
    | false => simp [jsonValE_filter env p es]

theorem ofEntries_isEmpty {α : Type} (es : List (Bytes × α)) : (AMap.ofEntries es []).isEmpty = es.isEmpty := by
  cases es with
  | nil => rfl
  | cons e es =>
    have : ∀ (es : List (Bytes × α)) (m : AMap α), m ≠ [] → AMap.ofEntries es m ≠ [] := by
      intro es
      induction es with
      | nil => intro m h; exact h
      | cons e es ih => intro m h; rw [AMap.ofEntries_cons]; exact ih _ (AMap.insert_ne_nil _ _ _)
    have := this es (AMap.insert [] e.1 e.2) (AMap.insert_ne_nil _ _ _)
    rw [← AMap.ofEntries_cons] at this
    cases h : AMap.ofEntries (e :: es) [] with
    | nil => exact absurd h this
    | cons => rfl

theorem jsonValE_isEmpty (env : JEnv) (es : List (Bytes × Json)) : (jsonValE env es).isEmpty = es.isEmpty := by
  match es with
  | [] => rfl
  | (k, j) :: es => rfl

/-- What is left of the entries once the three names are deleted. -/
theorem own_options (env : JEnv) (es : List (Bytes × Json)) :
    (let raw := AMap.erase (AMap.erase (AMap.erase (AMap.ofEntries (jsonValE env es) []) (lit "id")) (lit "if")) (lit "on_failure")
      if raw.isEmpty then none else some raw) = ownOptions env es := by
  have : AMap.erase (AMap.erase (AMap.erase (AMap.ofEntries (jsonValE env es) []) (lit "id")) (lit "if")) (lit "on_failure") = AMap.ofEntries (jsonValE env (es.filter fun e => e.1 ∉ optNames)) [] := by
    have e0 : ∀ q, AMap.erase ([] : AMap Val) q = [] := fun q => rfl
    rw [erase_ofEntries _ _ _ AMap.sorted_nil, e0, erase_ofEntries _ _ _ AMap.sorted_nil, e0, erase_ofEntries _ _ _ AMap.sorted_nil, e0, List.filter_filter, List.filter_filter]
    rw [← jsonValE_filter env (fun k => decide (k ∉ optNames))]
    congr 1
    apply List.filter_congr
    intro e _
    simp only [optNames, List.mem_cons, List.not_mem_nil, or_false, not_or, ne_eq, Bool.decide_and, decide_not]
    cases decide (e.1 = lit "id") <;> cases decide (e.1 = lit "if") <;> cases decide (e.1 = lit "on_failure") <;> rfl
  simp only [this, ownOptions, ofEntries_isEmpty, jsonValE_isEmpty]

/-! ## Lists of processors -/

/-- The elements, each into a new map. -/
def decConfs (env : JEnv) : List Json → Option (List (ProcCfg JCfg))
  | [] => some []
  | j :: js => (decConf env j []).bind fun c => (decConfs env js).map (c :: ·)

theorem growSlots_fresh {i : Nat} {slots : List (ProcCfg JCfg)} (h1 : i ≤ slots.length) (h2 : ∀ n, i ≤ n → slots.getD n [] = []) :
    i < (growSlots i slots i).length ∧ (growSlots i slots i).take i = slots.take i ∧ ∀ n, i ≤ n → (growSlots i slots i).getD n [] = [] := by
  unfold growSlots
  by_cases hl : slots.length ≤ i
  · rw [if_pos hl]
    have hi : slots.length = i := by omega
    simp only
    generalize hc : (if slots.length + slots.length / 2 < 4 then 4 else slots.length + slots.length / 2) = cap
    have hcap : i < cap := by
      rw [← hc]
      split <;> omega
    have ht : slots.take i = slots := List.take_of_length_le (by omega)
    rw [ht]
    refine ⟨by simp; omega, by rw [List.take_append_of_le_length (by omega), ht], ?_⟩
    intro n hn
    rw [List.getD_eq_getElem?_getD, List.getElem?_append_right (by omega), List.getElem?_replicate]
    split <;> rfl
  · rw [if_neg hl]
    exact ⟨by omega, rfl, h2⟩

theorem decSlots_eq (env : JEnv) : ∀ (js : List Json) (i : Nat) (slots : List (ProcCfg JCfg)), i ≤ slots.length → (∀ n, i ≤ n → slots.getD n [] = []) →
    (decSlots env js i slots i).map (fun x => x.1.take x.2) = (decConfs env js).map (slots.take i ++ ·)
  | [], i, slots, h1, h2 => by simp [decSlots, decConfs]
  | j :: js, i, slots, h1, h2 => by
    obtain ⟨g1, g2, g3⟩ := growSlots_fresh h1 h2
    rw [decSlots, decConfs]
    simp only [Nat.le_refl, if_true, g3 i (Nat.le_refl i)]
    cases hc : decConf env j [] with
    | none => rfl
    | some c =>
      simp only [Option.bind_some]
      rw [decSlots_eq env js (i + 1) _ (by rw [List.length_set]; omega)]
      · rw [Option.map_map]
        congr 1
        funext cs
        simp only [Function.comp]
        rw [List.take_succ_eq_append_getElem (by rw [List.length_set]; exact g1), List.take_set_of_le (Nat.le_refl i), g2]
        simp
      · intro n hn
        have := g3 n (by omega)
        simp only [List.getD_eq_getElem?_getD] at this ⊢
        rw [List.getElem?_set_ne (by omega)]
        exact this

theorem decSlice_eq (env : JEnv) (j : Json) : (decSlice env j ([], 0)).map (fun x => x.1.take x.2) = match j with
    | .null => some []
    | .arr js => decConfs env js
    | _ => none := by
  cases j with
  | arr js =>
    cases js with
    | nil => rfl
    | cons j js =>
      have := decSlots_eq env (j :: js) 0 [] (by simp) (by simp)
      simp only [List.take_nil, List.nil_append, Option.map_id'] at this
      simpa only [decSlice] using this
  | _ => rfl

/-! ## From the document to the configuration -/

/-- The entries, in order. -/
def decPairs (env : JEnv) : List (Bytes × Json) → Option (List (Bytes × Option (OptCfg JCfg)))
  | [] => some []
  | (k, j) :: es => (decOpt env j).bind fun o => (decPairs env es).map ((k, match j with
      | .null => none
      | _ => some o) :: ·)

theorem decEntries_eq (env : JEnv) : ∀ (es : List (Bytes × Json)) (m : ProcCfg JCfg), decEntries env es m = (decPairs env es).map fun os => AMap.ofEntries os m
  | [], m => rfl
  | (k, j) :: es, m => by
    rw [decEntries, decPairs]
    cases decOpt env j with
    | none => rfl
    | some o =>
      simp only [Option.bind_some, decEntries_eq env es, Option.map_map]
      rfl

theorem decOpt_obj (env : JEnv) {es : List (Bytes × Json)} {i c f : Option Json} (hi : FieldIs es (lit "id") i) (hc : FieldIs es (lit "if") c) (hf : FieldIs es (lit "on_failure") f)
    {o : OptCfg JCfg} : decOpt env (.obj es) = some o ↔
      ∃ id cond s, optStr i [] = some id ∧ optStr c [] = some cond ∧ optSlice env f ([], 0) = some s ∧ InRangeE env es ∧ o = .mk id cond (s.1.take s.2) (ownOptions env es) := by
  rw [decOpt, decFields_eq env es i c f {} hi hc hf]
  have hE := decIE_eq (env := env) es []
  constructor
  · intro h
    cases h1 : optStr i ({} : OptAcc).id with
    | none => simp [h1] at h
    | some id =>
      cases h2 : optStr c ({} : OptAcc).cond with
      | none => simp [h1, h2] at h
      | some cond =>
        cases h3 : optSlice env f (({} : OptAcc).slots, ({} : OptAcc).len) with
        | none => simp [h1, h2, h3] at h
        | some s =>
          simp only [h1, h2, h3, Option.bind_some] at h
          by_cases hr : InRangeE env es
          · rw [hE.2 hr] at h
            have := own_options env es
            simp only at this h
            rw [this] at h
            exact ⟨id, cond, s, rfl, rfl, rfl, hr, by simpa using h.symm⟩
          · rw [hE.1 hr] at h
            simp at h
  · rintro ⟨id, cond, s, h1, h2, h3, hr, rfl⟩
    have h1' : optStr i ({} : OptAcc).id = some id := h1
    have h2' : optStr c ({} : OptAcc).cond = some cond := h2
    have h3' : optSlice env f (({} : OptAcc).slots, ({} : OptAcc).len) = some s := h3
    simp only [h1', h2', h3', Option.bind_some, hE.2 hr]
    have := own_options env es
    simp only at this ⊢
    rw [this]

theorem optStr_iff {i : Option Json} {s : Bytes} : optStr i [] = some s ↔ StrIs i s := by
  constructor
  · intro h
    cases i with
    | none => cases h; exact .absent
    | some j =>
      cases j with
      | null => cases h; exact .null
      | str t => cases h; exact .str _
      | _ => simp [optStr, decString] at h
  · intro h; cases h <;> rfl

theorem optSlice_arr (env : JEnv) (js : List Json) (cs : List (ProcCfg JCfg)) (h : decConfs env js = some cs) : ∃ s, optSlice env (some (.arr js)) ([], 0) = some s ∧ s.1.take s.2 = cs := by
  have := decSlice_eq env (.arr js)
  simp only [h] at this
  simp only [optSlice]
  cases hs : decSlice env (.arr js) ([], 0) with
  | none => simp [hs] at this
  | some s => exact ⟨s, rfl, by simpa [hs] using this⟩

mutual
theorem decOpt_of {env : JEnv} : ∀ {j : Json} {o : OptCfg JCfg}, IsOpt env j o → decOpt env j = some o
  | _, _, .null => rfl
  | _, _, .obj es i c f id cond onF hi hc hf h1 h2 h3 hr => by
    obtain ⟨s, hs, ht⟩ := optSlice_of h3
    exact (decOpt_obj env hi hc hf).2 ⟨id, cond, s, optStr_iff.2 h1, optStr_iff.2 h2, hs, hr, by rw [ht]⟩
theorem optSlice_of {env : JEnv} : ∀ {f : Option Json} {onF : List (ProcCfg JCfg)}, IsSlice env f onF → ∃ s, optSlice env f ([], 0) = some s ∧ s.1.take s.2 = onF
  | _, _, .absent => ⟨([], 0), rfl, rfl⟩
  | _, _, .null => ⟨([], 0), rfl, rfl⟩
  | _, _, .arr js cs h => optSlice_arr env js cs (decConfs_of h)
theorem decConfs_of {env : JEnv} : ∀ {js : List Json} {cs : List (ProcCfg JCfg)}, IsConfs env js cs → decConfs env js = some cs
  | _, _, .nil => rfl
  | _, _, .cons j c js cs h1 h2 => by rw [decConfs, decConf_of h1, decConfs_of h2]; rfl
theorem decConf_of {env : JEnv} : ∀ {j : Json} {c : ProcCfg JCfg}, IsConf env j c → decConf env j [] = some c
  | _, _, .null => rfl
  | _, _, .obj es os h => by rw [decConf, decEntries_eq, decPairs_of h]; rfl
theorem decPairs_of {env : JEnv} : ∀ {es : List (Bytes × Json)} {os : List (Bytes × Option (OptCfg JCfg))}, IsEntries env es os → decPairs env es = some os
  | _, _, .nil => rfl
  | _, _, .cons k j o es os h1 h2 => by
    obtain ⟨o', h3, h4⟩ := decPOpt_of h1
    rw [decPairs, h3, decPairs_of h2]
    simp only [Option.bind_some, Option.map_some, ← h4]
theorem decPOpt_of {env : JEnv} : ∀ {j : Json} {o : Option (OptCfg JCfg)}, IsPOpt env j o → ∃ o', decOpt env j = some o' ∧ o = (match j with
    | .null => none
    | _ => some o')
  | _, _, .null => ⟨_, rfl, rfl⟩
  | _, _, .obj es o h => ⟨o, decOpt_of h, rfl⟩
end

theorem regFields_mem {names : List Bytes} : ∀ {es : List (Bytes × Json)}, RegFields names es → ∀ e ∈ es, (∃ n ∈ names, Folds n e.1) → RegSlice e.2
  | [], _, e, he, _ => by simp at he
  | (k, j) :: es, h, e, he, hf => by
    rcases List.mem_cons.1 he with rfl | he
    · exact h.1 hf
    · exact regFields_mem h.2 e he hf

theorem fieldIs_some {es : List (Bytes × Json)} {n : Bytes} {j : Json} (h : FieldIs es n (some j)) : ∃ k, (k, j) ∈ es ∧ Folds n k := by
  obtain ⟨pre, k, post, rfl, hk, _⟩ := h
  exact ⟨k, by simp, hk⟩

mutual
theorem isOpt_of {env : JEnv} : ∀ (j : Json) {o : OptCfg JCfg}, RegOpt j → decOpt env j = some o → IsOpt env j o
  | .null, o, _, h => by cases h; exact .null
  | .bool _, o, _, h => by simp [decOpt] at h
  | .num _, o, _, h => by simp [decOpt] at h
  | .str _, o, _, h => by simp [decOpt] at h
  | .arr _, o, _, h => by simp [decOpt] at h
  | .obj es, o, hreg, h => by
    obtain ⟨i, hi⟩ := hreg.1 (lit "id") (by simp [optNames])
    obtain ⟨c, hc⟩ := hreg.1 (lit "if") (by simp [optNames])
    obtain ⟨f, hf⟩ := hreg.1 (lit "on_failure") (by simp [optNames])
    have key := isSliceE_of (env := env) es [lit "on_failure"] hreg.2
    obtain ⟨id, cond, s, h1, h2, h3, hr, rfl⟩ := (decOpt_obj env hi hc hf).1 h
    refine .obj es i c f id cond _ hi hc hf (optStr_iff.1 h1) (optStr_iff.1 h2) ?_ hr
    cases f with
    | none => cases h3; exact .absent
    | some j =>
      obtain ⟨k, hm, hk⟩ := fieldIs_some hf
      exact key k j hm ⟨_, by simp, hk⟩ h3
theorem isSliceE_of {env : JEnv} : ∀ (es : List (Bytes × Json)) (names : List Bytes), RegFields names es → ∀ (k : Bytes) (j : Json), (k, j) ∈ es → (∃ n ∈ names, Folds n k) →
    ∀ {s}, decSlice env j ([], 0) = some s → IsSlice env (some j) (s.1.take s.2)
  | [], _, _, _, _, hm, _, _, _ => by simp at hm
  | (k0, j0) :: es, names, hreg, k, j, hm, hf, s, hs => by
    rcases List.mem_cons.1 hm with he | he
    · have hk : k = k0 := congrArg Prod.fst he
      have hj : j = j0 := congrArg Prod.snd he
      rw [hk] at hf
      rw [hj] at hs ⊢
      exact isSlice_of j0 (hreg.1 hf) hs
    · exact isSliceE_of es names hreg.2 k j he hf hs
theorem isSlice_of {env : JEnv} : ∀ (j : Json), RegSlice j → ∀ {s}, decSlice env j ([], 0) = some s → IsSlice env (some j) (s.1.take s.2)
  | .null, _, s, hs => by cases hs; exact .null
  | .bool _, _, s, hs => by simp [decSlice] at hs
  | .num _, _, s, hs => by simp [decSlice] at hs
  | .str _, _, s, hs => by simp [decSlice] at hs
  | .obj _, _, s, hs => by simp [decSlice] at hs
  | .arr js, hreg, s, hs => by
    have := decSlice_eq env (.arr js)
    rw [hs] at this
    exact .arr js _ (isConfs_of js hreg this.symm)
theorem isConfs_of {env : JEnv} : ∀ (js : List Json) {cs : List (ProcCfg JCfg)}, RegConfs js → decConfs env js = some cs → IsConfs env js cs
  | [], cs, _, h => by cases h; exact .nil
  | j :: js, cs, hreg, h => by
    rw [decConfs] at h
    cases h1 : decConf env j [] with
    | none => simp [h1] at h
    | some c =>
      cases h2 : decConfs env js with
      | none => simp [h1, h2] at h
      | some cs' =>
        simp only [h1, h2, Option.bind_some, Option.map_some, Option.some.injEq] at h
        subst h
        exact .cons j c js cs' (isConf_of j hreg.1 h1) (isConfs_of js hreg.2 h2)
theorem isConf_of {env : JEnv} : ∀ (j : Json) {c : ProcCfg JCfg}, RegConf j → decConf env j [] = some c → IsConf env j c
  | .null, c, _, h => by cases h; exact .null
  | .bool _, _, _, h => by simp [decConf] at h
  | .num _, _, _, h => by simp [decConf] at h
  | .str _, _, _, h => by simp [decConf] at h
  | .arr _, _, _, h => by simp [decConf] at h
  | .obj es, c, hreg, h => by
    rw [decConf, decEntries_eq] at h
    cases h1 : decPairs env es with
    | none => simp [h1] at h
    | some os =>
      simp only [h1, Option.map_some, Option.some.injEq] at h
      subst h
      exact .obj es os (isEntries_of es hreg h1)
theorem isEntries_of {env : JEnv} : ∀ (es : List (Bytes × Json)) {os : List (Bytes × Option (OptCfg JCfg))}, RegEntries es → decPairs env es = some os → IsEntries env es os
  | [], os, _, h => by cases h; exact .nil
  | (k, j) :: es, os, hreg, h => by
    rw [decPairs] at h
    cases h1 : decOpt env j with
    | none => simp [h1] at h
    | some o =>
      cases h2 : decPairs env es with
      | none => simp [h1, h2] at h
      | some os' =>
        simp only [h1, h2, Option.bind_some, Option.map_some, Option.some.injEq] at h
        subst h
        refine .cons k j _ es os' ?_ (isEntries_of es hreg.2 h2)
        have ho := isOpt_of j hreg.1 h1
        match j, ho with
        | .null, _ => exact .null
        | .obj es, ho => exact .obj es o ho
end

end Sawmill
