import Verif.Spec.ConfigJson
/-!
# What any JSON document stands for as a configuration, also if several names stand for one field

The entries of an object take effect one after the other. A later text replaces an earlier one (`null` does not). A later list does *not* replace an earlier one: its elements are merged into those that are at the same places, and a place keeps
what it has while a shorter list is there; only `null` and the empty list clear all places.
-/

namespace Sawmill
open Rfc

/-- What is at each place of a list of processors, also beyond its end. -/
abbrev Places := Nat → ProcCfg JCfg

def Places.clear : Places := fun _ => []

def Places.put (p : Places) (i : Nat) (c : ProcCfg JCfg) : Places := fun n => if n = i then c else p n

/-- The list that consists of the first `n` places. -/
def Places.first (p : Places) (n : Nat) : List (ProcCfg JCfg) := (List.range n).map p

/-- A document for a field of text that has the value `s`, which then has the value `t`. -/
inductive TextTo : Json → Bytes → Bytes → Prop where
  | null (s : Bytes) : TextTo .null s s
  | str (s t : Bytes) : TextTo (.str t) s t

/-- The fields of the options of a processor. -/
structure OptState where
  id : Bytes := []
  cond : Bytes := []
  places : Places := .clear
  len : Nat := 0

mutual
/-- The options of a processor that a document stands for. -/
inductive MeansOpt (env : JEnv) : Json → OptCfg JCfg → Prop where
  | null : MeansOpt env .null (.mk [] [] [] none)
  | obj (es : List (Bytes × Json)) (s : OptState) (h : OptTo env es {} s) (hr : InRangeE env es) : MeansOpt env (.obj es) (.mk s.id s.cond (s.places.first s.len) (ownOptions env es))
/-- The entries of an option object, one after the other. -/
inductive OptTo (env : JEnv) : List (Bytes × Json) → OptState → OptState → Prop where
  | done (s : OptState) : OptTo env [] s s
  | other (k : Bytes) (j : Json) (es : List (Bytes × Json)) (s s' : OptState) (hk : ∀ n ∈ optNames, ¬ Folds n k) (h : OptTo env es s s') : OptTo env ((k, j) :: es) s s'
  | id (k : Bytes) (j : Json) (es : List (Bytes × Json)) (s s' : OptState) (t : Bytes) (hk : Folds (lit "id") k) (ht : TextTo j s.id t) (h : OptTo env es { s with id := t } s') : OptTo env ((k, j) :: es) s s'
  | cond (k : Bytes) (j : Json) (es : List (Bytes × Json)) (s s' : OptState) (t : Bytes) (hk : Folds (lit "if") k) (ht : TextTo j s.cond t) (h : OptTo env es { s with cond := t } s') :
      OptTo env ((k, j) :: es) s s'
  | onFailure (k : Bytes) (j : Json) (es : List (Bytes × Json)) (s s' : OptState) (p : Places) (n : Nat) (hk : Folds (lit "on_failure") k) (hl : ListTo env j s.places p n)
      (h : OptTo env es { s with places := p, len := n } s') : OptTo env ((k, j) :: es) s s'
/-- A document for a list: what is at its places afterwards, and its length. -/
inductive ListTo (env : JEnv) : Json → Places → Places → Nat → Prop where
  | null (p : Places) : ListTo env .null p .clear 0
  | empty (p : Places) : ListTo env (.arr []) p .clear 0
  | arr (j : Json) (js : List Json) (p p' : Places) (h : ItemsTo env (j :: js) 0 p p') : ListTo env (.arr (j :: js)) p p' (js.length + 1)
/-- The elements, from place `i` on. -/
inductive ItemsTo (env : JEnv) : List Json → Nat → Places → Places → Prop where
  | nil (i : Nat) (p : Places) : ItemsTo env [] i p p
  | cons (j : Json) (js : List Json) (i : Nat) (p p' : Places) (c : ProcCfg JCfg) (h1 : ItemTo env j (p i) c) (h2 : ItemsTo env js (i + 1) (p.put i c) p') : ItemsTo env (j :: js) i p p'
/-- An element: `null` clears the place, the entries of an object are added to what is there. -/
inductive ItemTo (env : JEnv) : Json → ProcCfg JCfg → ProcCfg JCfg → Prop where
  | null (c : ProcCfg JCfg) : ItemTo env .null c []
  | obj (es : List (Bytes × Json)) (os : List (Bytes × Option (OptCfg JCfg))) (c : ProcCfg JCfg) (h : MeansEntries env es os) : ItemTo env (.obj es) c (AMap.ofEntries os c)
inductive MeansEntries (env : JEnv) : List (Bytes × Json) → List (Bytes × Option (OptCfg JCfg)) → Prop where
  | nil : MeansEntries env [] []
  | cons (k : Bytes) (j : Json) (o : Option (OptCfg JCfg)) (es : List (Bytes × Json)) (os : List (Bytes × Option (OptCfg JCfg))) (h1 : MeansPOpt env j o) (h2 : MeansEntries env es os) :
      MeansEntries env ((k, j) :: es) ((k, o) :: os)
/-- Options that may be missing. They do not depend on what was there. -/
inductive MeansPOpt (env : JEnv) : Json → Option (OptCfg JCfg) → Prop where
  | null : MeansPOpt env .null none
  | obj (es : List (Bytes × Json)) (o : OptCfg JCfg) (h : MeansOpt env (.obj es) o) : MeansPOpt env (.obj es) (some o)
end

/-- The fields of a configuration. -/
structure CfgState where
  id : Bytes := []
  description : Bytes := []
  procs : Places := .clear
  nprocs : Nat := 0
  fails : Places := .clear
  nfails : Nat := 0

def cfgNames : List Bytes := [lit "id", lit "description", lit "processors", lit "on_failure"]

/-- The entries of the object of a configuration, one after the other. -/
inductive CfgTo (env : JEnv) : List (Bytes × Json) → CfgState → CfgState → Prop where
  | done (s : CfgState) : CfgTo env [] s s
  | other (k : Bytes) (j : Json) (es : List (Bytes × Json)) (s s' : CfgState) (hk : ∀ n ∈ cfgNames, ¬ Folds n k) (h : CfgTo env es s s') : CfgTo env ((k, j) :: es) s s'
  | id (k : Bytes) (j : Json) (es : List (Bytes × Json)) (s s' : CfgState) (t : Bytes) (hk : Folds (lit "id") k) (ht : TextTo j s.id t) (h : CfgTo env es { s with id := t } s') : CfgTo env ((k, j) :: es) s s'
  | description (k : Bytes) (j : Json) (es : List (Bytes × Json)) (s s' : CfgState) (t : Bytes) (hk : Folds (lit "description") k) (ht : TextTo j s.description t) (h : CfgTo env es { s with description := t } s') :
      CfgTo env ((k, j) :: es) s s'
  | processors (k : Bytes) (j : Json) (es : List (Bytes × Json)) (s s' : CfgState) (p : Places) (n : Nat) (hk : Folds (lit "processors") k) (hl : ListTo env j s.procs p n)
      (h : CfgTo env es { s with procs := p, nprocs := n } s') : CfgTo env ((k, j) :: es) s s'
  | onFailure (k : Bytes) (j : Json) (es : List (Bytes × Json)) (s s' : CfgState) (p : Places) (n : Nat) (hk : Folds (lit "on_failure") k) (hl : ListTo env j s.fails p n)
      (h : CfgTo env es { s with fails := p, nfails := n } s') : CfgTo env ((k, j) :: es) s s'

/-- The configuration that a document stands for; `null` stands for none. -/
inductive MeansConfig (env : JEnv) : Json → Option JConfig → Prop where
  | null : MeansConfig env .null none
  | obj (es : List (Bytes × Json)) (s : CfgState) (h : CfgTo env es {} s) : MeansConfig env (.obj es) (some ⟨⟨s.id, s.procs.first s.nprocs, s.fails.first s.nfails⟩, s.description⟩)

end Sawmill
