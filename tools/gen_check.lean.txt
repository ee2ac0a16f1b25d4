import Verif.Model.Gen
open Sawmill Gen
def u (s : String) : Bytes := s.toUTF8.toList
def fieldO : Opt := {name := u "field", type := u "string", required := true, description := u "Source field to process."}
def tfO : Opt := {name := u "target_field", type := u "string", optional := true, description := u "The field to assign the output value to, by default field is updated in-place."}
def imO : Opt := {name := u "ignore_missing", type := u "bool", optional := true, default := some (.other (u "false") false), description := u "If true and field does not exist or is null, the processor quietly returns without modifying the document."}
def ifO : Opt := {name := u "ignore_failure", type := u "bool", optional := true, default := some (.other (u "false") false), description := u "Ignore failures for the processor."}
def so (n d t : String) : Opt := {name := u n, type := u "string", optional := true, default := some (.str (u d)), description := u t}
def sch : List (Bytes × Proc) := [
 (u "append", {description := u "Appends one or more values to an existing array if the field already exists and it is an array. Converts a scalar to an array and appends one or more values to it if the field exists and it is a scalar. Creates an array containing the provided values if the field doesn’t exist. Accepts a single value or an array of values.", configuration := [imO, fieldO, {name := u "allow_duplicates", type := u "bool", optional := true, default := some (.other (u "false") false), description := u "If false, the processor does not append values already present in the field."}, {name := u "value", type := u "string", description := u "The value to be appended."}]}),
 (u "lowercase", {description := u "Lowercase converts a string to its lowercase equivalent. If the field is an array of strings, all members of the array will be converted.", configuration := [imO, fieldO, tfO]}),
 (u "uppercase", {description := u "Uppercase converts a string to its uppercase equivalent. If the field is an array of strings, all members of the array will be converted.", configuration := [imO, fieldO, tfO]}),
 (u "community_id", {description := u "Computes the Community ID for network flow data as defined in the
[Community ID Specification](https://github.com/corelight/community-id-spec).
You can use a community ID to correlate network events related to a single
flow.

The community ID processor reads network flow data from related
Elastic Common Schema (ECS) fields by default. If you use the ECS, no
configuration is required.", configuration := [so "source_ip" "source.ip" "Field containing the source IP address.", so "source_port" "source.port" "Field containing the source port.",
 so "destination_ip" "destination.ip" "Field containing the destination IP address.", so "destination_port" "destination.port" "Field containing the destination port.", so "iana_number" "network.iana_number" "Field containing the IANA number.",
 so "icmp_type" "icmp.type" "Field containing the ICMP type.", so "icmp_code" "icmp.code" "Field containing the ICMP code.", so "transport" "network.transport" "Field containing the transport protocol. Used only when the iana_number field is not present.",
 {name := u "seed", type := u "int16", optional := true, default := some (.other (u "0") false), description := u "Seed for the community ID hash. Must be between 0 and 65535
(inclusive). The seed can prevent hash collisions between network
domains, such as a staging and production network that use the same
addressing scheme."}, {tfO with default := some (.str (u "network.community_id"))}, ifO]}),
 (u "remove", {description := u "Removes existing fields. If one field doesn’t exist the processor\nwill fail.", configuration := [{fieldO with name := u "fields", type := u "[]string", description := u "Source fields to remove."}, imO]}),
 (u "set", {description := u "Sets one field and associates it with the specified value. If the field\nalready exists, its value will be replaced with the provided one.", configuration := [{name := u "value", type := u "github.com/andrewkroh/go-sawmill/pkg/config.EventValue", optional := true, description := u "The value to be set for the field."}, {name := u "copy_from", type := u "string", optional := true, description := u "The origin field which will be copied to target_field."}, tfO, imO, ifO]})]

def up (b : UInt8) : UInt8 := if 97 ≤ b ∧ b ≤ 122 then b - 32 else b
def lo (b : UInt8) : UInt8 := if 65 ≤ b ∧ b ≤ 90 then b + 32 else b
-- wordwrap by runes on String
structure W where (out word space : List Char) (cur : Nat)
def wrapS (s : String) (lim : Nat) : String := Id.run do
  let mut buf : Array Char := #[]
  let mut cur := 0
  let mut wd : Array Char := #[]
  let mut sp : Array Char := #[]
  for c in s.toList do
    if c = '\n' then
      if wd.size = 0 then
        if cur + sp.size > lim then cur := 0
        else
          cur := cur + sp.size
          buf := buf ++ sp
        sp := #[]
      else
        buf := buf ++ sp ++ wd
        sp := #[]; wd := #[]
      buf := buf.push c
      cur := 0
    else if c.isWhitespace then
      if sp.size = 0 || wd.size > 0 then
        cur := cur + sp.size + wd.size
        buf := buf ++ sp ++ wd
        sp := #[]; wd := #[]
      sp := sp.push c
    else
      wd := wd.push c
      if cur + wd.size + sp.size > lim && wd.size < lim then
        buf := buf.push '\n'
        cur := 0
        sp := #[]
  if wd.size = 0 then
    if cur + sp.size ≤ lim then buf := buf ++ sp
  else buf := buf ++ sp ++ wd
  return String.ofList buf.toList
def E : GenEnv := { lower := List.map lo, upper := List.map up, title := fun s => match s with | [] => [] | b :: r => up b :: r, quoteBody := id, wrap := fun s n => u (wrapS (String.fromUTF8! ⟨s.toArray⟩) n), format := some, parse := fun _ => none }
def sortO (l : List Opt) : List Opt := l.mergeSort fun a b => ! bLt b.name a.name
def squeeze (s : Bytes) : Bytes := s.filter fun b => b ≠ 32 ∧ b ≠ 10 ∧ b ≠ 9
def str (s : Bytes) : String := String.fromUTF8! ⟨s.toArray⟩
def check : IO Unit := do
  for (n, p) in sch do
    let os := sortO p.configuration
    let imps := (os.filterMap importOf).eraseDups
    let f ← IO.FS.readFile s!"/repo/pkg/processor/{str n}/{str n}.go"
    for inc in [true, false] do
      match render E n p.description os imps inc with
      | none => IO.println "none"
      | some t =>
        IO.println s!"{str n} {inc} {decide (squeeze t = squeeze (u f))}"
        if inc = false then IO.FS.writeFile s!"/tmp/g/{str n}.go" (str t)
  let readme ← IO.FS.readFile "/repo/docs/README.md"
  let tpl ← IO.FS.readFile "/repo/docs/generate/assets/README.md.gotmpl"
  let intro := (tpl.splitOn "## Processors").head!
  let ps := sch.map fun (n, p) => (n, {p with configuration := (sortO p.configuration).map fun o => {o with type := goTypeToYAMLType o.type}})
  let ps := ps.mergeSort fun a b => ! bLt b.1 a.1
  let t := docsText (u intro) ps
  IO.FS.writeFile "/tmp/g/README.md" (str t)
  IO.println s!"readme {decide (t = u readme)}"
#eval check
