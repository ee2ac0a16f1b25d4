import Verif.Props.Programs
import Verif.Props.PureLaws
/-!
# Cases that meet the hypotheses of C58–C62
-/

namespace Sawmill
open Rfc

/-- The registrations of the programs succeed. -/
theorem cli_registered : ∃ r, Registered cliKinds r := by
  obtain ⟨r, h, _⟩ := registerKinds_spec cliKinds [] (by decide) (fun _ _ => rfl)
  exact ⟨r, h⟩

theorem example_registered : ∃ r, Registered exampleKinds r := by
  obtain ⟨r, h, _⟩ := registerKinds_spec exampleKinds [] (by decide) (fun _ _ => rfl)
  exact ⟨r, h⟩

/-- An option that is a string. -/
def cfgStr (c : JCfg) (name : Bytes) : Bytes :=
  match AMap.lookup (c.getD []) name with
  | some (.scalar (.str s)) => s
  | _ => []

/-- A simple way to fill in options: `field` is required. The value of a `set` is at address 0. -/
def sampleFill (k : ProcKind) (c : JCfg) : Except Err Opts :=
  match k with
  | .lowercase => if cfgStr c (lit "field") = [] then .error (.other []) else .ok (.lowercase (cfgStr c (lit "field")) (cfgStr c (lit "target_field")) false)
  | .uppercase => if cfgStr c (lit "field") = [] then .error (.other []) else .ok (.uppercase (cfgStr c (lit "field")) (cfgStr c (lit "target_field")) false)
  | .set => .ok (.set 0 (cfgStr c (lit "copy_from")) (cfgStr c (lit "target_field")) false false)
  | .append => .ok (.append (cfgStr c (lit "field")) (cfgStr c (lit "value")) true false)
  | .remove => .ok (.remove [] false)
  | .communityId => .ok (.communityId false)

theorem sampleFill_typed (k : ProcKind) (c : JCfg) (o : Opts) (h : sampleFill k c = .ok o) : o.kind = k := by
  cases k <;> simp only [sampleFill] at h
  all_goals first
    | (split at h <;> first | (cases h; done) | (simp only [Except.ok.injEq] at h; subst h; rfl))
    | (simp only [Except.ok.injEq] at h; subst h; rfl)

theorem sampleFill_cli (s : Scalar) : FillOk [.cell (scalarCell s)] cliKinds sampleFill where
  typed k _ c o h := sampleFill_typed k c o h
  leaf k _ c o h := by
    rintro v x t i m rfl
    have := sampleFill_typed k c _ h
    obtain rfl : k = .set := this.symm
    simp only [sampleFill, Except.ok.injEq, Opts.set.injEq] at h
    obtain ⟨rfl, _⟩ := h
    exact ⟨s, rfl⟩

theorem sampleFill_example : FillOk [] exampleKinds sampleFill where
  typed k _ c o h := sampleFill_typed k c o h
  leaf k hk c o h := by
    rintro v x t i m rfl
    have := sampleFill_typed k c _ h
    obtain rfl : k = .set := this.symm
    simp [exampleKinds] at hk

/-- Lower case of ASCII. -/
def asciiConv : Conv := ⟨List.map fun b => if 65 ≤ b.toNat ∧ b.toNat ≤ 90 then b + 32 else b, List.map fun b => if 97 ≤ b.toNat ∧ b.toNat ≤ 122 then b - 32 else b⟩

/-- `lowercase` of `a.b` into `c`, and if that fails `set` of `d`. -/
def abConfig : Config JCfg where
  id := lit "p"
  processors := [[(lit "lowercase", some (.mk [] [] [[(lit "set", some (.mk [] [] [] (some [(lit "target_field", .scalar (.str (lit "d")))])))]]
    (some [(lit "field", .scalar (.str (lit "a.b"))), (lit "target_field", .scalar (.str (lit "c")))])))]]
  onFailure := []

/-- What it asks for. -/
theorem sample_plan : Spec.plan (Spec.optionsOf [.cell (strCell (lit "m"))] cliKinds sampleFill) none abConfig =
    some ⟨[.mk (.lowercase (lit "a.b") (lit "c")) false false [.mk (.set (.str (lit "m")) [] (lit "d")) false false []]], []⟩ := by
  rfl

/-- What it does if `a.b` is a string, and if it is missing. -/
theorem sample_apply : ∃ q, Spec.plan (Spec.optionsOf [.cell (strCell (lit "m"))] cliKinds sampleFill) none abConfig = some q ∧
    q.apply asciiConv (some [(lit "a", .obj [(lit "b", Spec.str (lit "Xy"))])]) = .done (some [(lit "a", .obj [(lit "b", Spec.str (lit "Xy"))]), (lit "c", Spec.str (lit "xy"))], none) ∧
    q.apply asciiConv (some []) = .done (some [(lit "d", Spec.str (lit "m"))], none) := by
  refine ⟨_, sample_plan, ?_, ?_⟩ <;> rfl

/-- The configuration is accepted by the command line program. -/
theorem sample_accepted : ∃ r p, Registered cliKinds r ∧ Pipeline.new (registryFactory (fun _ => false) sampleFill none r) abConfig = .ok (.ok p) := by
  obtain ⟨r, hr⟩ := cli_registered
  have := new_plan (pr := fun _ => false) (nilConfig := (none : JCfg)) (by decide) hr (sampleFill_cli (.str (lit "m"))) abConfig
  rw [show [HObj.cell (scalarCell (.str (lit "m")))] = [.cell (strCell (lit "m"))] from rfl, sample_plan] at this
  obtain ⟨p, hp, _⟩ := this
  exact ⟨r, p, hr, hp⟩

/-! ## A session with the C library -/

/-- `{"id":"p","processors":[{"lowercase":{"field":"a"}}]}` -/
def cText : Bytes := [123, 34, 105, 100, 34, 58, 34, 112, 34, 44, 34, 112, 114, 111, 99, 101, 115, 115, 111, 114, 115, 34, 58, 91, 123, 34, 108, 111, 119, 101, 114, 99, 97, 115, 101, 34, 58, 123, 34, 102, 105, 101, 108, 100, 34, 58, 34, 97, 34, 125, 125, 93, 125]

/-- `{"id":""}`: a configuration, but one that is refused. -/
def cRefused : Bytes := [123, 34, 105, 100, 34, 58, 34, 34, 125]

/-- What the texts in the replies are. -/
def replyText : CReply → Option Bytes
  | .reply (.text out) => some out
  | _ => none

def replyCode : CReply → Option Nat
  | .code n => some n
  | _ => none

def cFactory : Factory Builtin (Option Err) JCfg := registryFactory (fun _ => false) sampleFill none [(lit "lowercase", ⟨ProcKind.lowercase.new, .iface⟩)]

/-- Load, process `{"a":"X"}`, load what is refused, process again. -/
def cCalls : List CCall := [.load cText, .process [123, 34, 97, 34, 58, 34, 88, 34, 125], .load cRefused, .process [123, 34, 97, 34, 58, 34, 88, 34, 125], .load cText]

theorem c_sample : ((CLib.calls bitsEnv 10000 asciiConv cFactory ⟨none, ⟨[], noCounts, []⟩⟩ cCalls).1.map replyText = [none, some [123, 34, 97, 34, 58, 34, 120, 34, 125], none]) := by
  decide +kernel

theorem c_sample_codes : ((CLib.calls bitsEnv 10000 asciiConv cFactory ⟨none, ⟨[], noCounts, []⟩⟩ cCalls).1.map replyCode = [some 0, none, some 1]) := by
  decide +kernel

theorem c_sample_crash : (CLib.calls bitsEnv 10000 asciiConv cFactory ⟨none, ⟨[], noCounts, []⟩⟩ cCalls).2 = some .panic := by
  decide +kernel

/-- The sample is one of the sessions that `c_session` is about. -/
theorem c_sample_registered : Registered exampleKinds [(lit "lowercase", ⟨ProcKind.lowercase.new, .iface⟩)] := by rfl

/-! ## The WebAssembly demo -/

def wasmFields : Except CliEnd (PWorld Heap × WasmReply) → Option (AMap Val)
  | .ok (_, .object m) => m
  | _ => none

theorem wasm_sample : wasmFields (wasmProcess bitsEnv 10000 asciiConv cFactory ⟨[], noCounts, []⟩ [cText, [123, 34, 97, 34, 58, 34, 88, 34, 125]]) = some [([97], Spec.str [120])] := by
  rfl

/-- Wrong in two ways: the configuration is what is reported. -/
theorem wasm_sample_order : ∃ w, wasmProcess bitsEnv 10000 asciiConv cFactory ⟨[], noCounts, []⟩ [[123], [123]] = .ok (w, .badConfig) := ⟨_, rfl⟩

end Sawmill
