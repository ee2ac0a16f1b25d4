import Verif.Base.Bytes
/-!
# Keys and paths (pkg/event/event.go, pkg/eventutil/event.go)
-/

namespace Sawmill

/-- The byte `.` (0x2e). -/
def dot : UInt8 := 46
/-- The byte `\` (0x5c). -/
def bsl : UInt8 := 92

/-- The loop of `keyToPath`: pkg/event/event.go:162-186.
`paths`, `scratch`, `escape` are the local variables `paths`, `pathScratch`, `escape`;
`scratch = scratch[:0]` becomes `[]` (the strings already taken are copies, `string(pathScratch)`). -/
def keyToPathLoop : Bytes → List Bytes → Bytes → Bool → List Bytes
  | [], paths, scratch, _ =>
    -- event.go:182-186
    if scratch.length > 0 then paths ++ [scratch] else paths
  | c :: rest, paths, scratch, escape =>
    if c = bsl then
      -- event.go:164-165
      keyToPathLoop rest paths scratch true
    else if c = dot then
      -- event.go:166-175
      if escape then keyToPathLoop rest paths (scratch ++ [dot]) false
      else if scratch.length > 0 then keyToPathLoop rest (paths ++ [scratch]) [] false
      else keyToPathLoop rest paths scratch false
    else
      -- event.go:176-179
      keyToPathLoop rest paths (scratch ++ [c]) false

/-- `keyToPath`: pkg/event/event.go:158-187. -/
def keyToPath (key : Bytes) : List Bytes := keyToPathLoop key [] [] false

/-- `EscapeKey`: pkg/eventutil/event.go:58-63 (`strings.ReplaceAll(key, ".", "\\.")`; the early return on
keys without a dot is kept). -/
def escapeKey (key : Bytes) : Bytes :=
  if dot ∈ key then key.flatMap (fun c => if c = dot then [bsl, dot] else [c]) else key

/-- `pathString`: pkg/event/event.go:189-204. -/
def pathString : List Bytes → Bytes
  | [] => lit "/"
  | [p] => lit "/" ++ p
  | ps => ps.flatMap (fun p => lit "/" ++ p)

/-- `strings.Split(tag, ",")` as used by `parseTag`: the pieces between commas. -/
def splitComma : Bytes → List Bytes
  | [] => [[]]
  | c :: rest =>
    if c = 44 then [] :: splitComma rest
    else match splitComma rest with
      | [] => [[c]]
      | h :: t => (c :: h) :: t

/-- `parseTag`: pkg/eventutil/structtag.go:34-37. -/
def parseTag (tag : Bytes) : Bytes × List Bytes :=
  match splitComma tag with
  | [] => ([], [])          -- `strings.Split` never returns an empty slice here
  | h :: t => (h, t)

/-- `tagOptions.Has`: pkg/eventutil/structtag.go:24-32. -/
def tagHas : List Bytes → Bytes → Bool
  | [], _ => false
  | t :: ts, opt => if t = opt then true else tagHas ts opt

end Sawmill
