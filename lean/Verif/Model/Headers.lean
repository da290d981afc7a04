/-
Configuration extensions and passthrough headers travelling from the coordinator to the workers.

Models `/repo/src/config_extension_ext.rs:9-129`, `/repo/src/passthrough_headers.rs:8-39` and the merge of
both in `/repo/src/coordinator/query_coordinator.rs:168-169`.

A string is a list of characters.
-/
import Verif.Model.Boundary

namespace DD.Headers

/-- Rust's `str`; std. -/
abbrev Str := List Char

/-- `http::HeaderMap`: pairs of name and value. `insert` of the real map replaces in place; here the new
pair goes to the end (the order of different names has no effect on this code). http crate. -/
abbrev HeaderMap := List (Str × Str)

/-- `HeaderMap::insert` (http crate), used at `/repo/src/config_extension_ext.rs:95-129`. -/
def insert (m : HeaderMap) (k v : Str) : HeaderMap := m.filter (fun p => p.1 != k) ++ [(k, v)]

/-- `HeaderMap::extend`: every name of the other map replaces the values of the same name.
http crate, used at `/repo/src/coordinator/query_coordinator.rs:168-169`. -/
def extend (m other : HeaderMap) : HeaderMap :=
  m.filter (fun p => !(other.any fun q => q.1 == p.1)) ++ other

/-- Characters allowed in a header name (RFC 9110 token characters). -/
def tokenChar (c : Char) : Bool :=
  c.isAlphanum || "!#$%&'*+-.^_`|~".toList.contains c

/-- `HeaderName::from_str`: not empty, only token characters, upper case is folded.
http crate, used at `/repo/src/config_extension_ext.rs:95-129`. -/
def headerName (s : Str) : Except Err Str :=
  if s.isEmpty || !s.all tokenChar then .error (.internal "Failed to add config extension")
  else .ok (s.map Char.toLower)

/-- Characters allowed in a header value (`HeaderValue::from_str`, `to_str`). http crate. -/
def visible (c : Char) : Bool := (32 ≤ c.toNat && c.toNat < 127) || c == '\t'

/-- `HeaderValue::from_str` (http crate), used at `/repo/src/config_extension_ext.rs:95-129`. -/
def headerValue (s : Str) : Except Err Str :=
  if s.all visible then .ok s else .error (.internal "Failed to add config extension")

/-- config_extension_ext.rs:9. -/
def configPrefix : Str := "x-datafusion-distributed-config-".toList

/-- `str::trim_start_matches` with a string pattern: removes the pattern as often as it occurs.
std, used at `/repo/src/config_extension_ext.rs:24-88`. -/
def trimFuel (p : Str) : Nat → Str → Str
  | 0, s => s
  | n + 1, s => if p.isPrefixOf s then trimFuel p n (s.drop p.length) else s

/-- `str::trim_start_matches` (std), used at `/repo/src/config_extension_ext.rs:24-88`. -/
def trimStartMatches (p s : Str) : Str := trimFuel p s.length s

/-! ### Coordinator -/

/-- An entry of a configuration extension: its key and its value, if it has one. `ConfigEntry` (DataFusion). -/
abbrev Entries := List (Str × Option Str)

/-- The inner loop of `get_config_extension_propagation_headers`, config_extension_ext.rs:115-126. -/
def addEntries (pfx : Str) : Entries → HeaderMap → Except Err HeaderMap
  | [], m => .ok m
  | (_, none) :: es, m => addEntries pfx es m
  | (k, some v) :: es, m => do
    let name ← headerName (configPrefix ++ (pfx ++ '.' :: k))
    let value ← headerValue v
    addEntries pfx es (insert m name value)

/-- The outer loop, config_extension_ext.rs:111-127. -/
def addExtensions (prefixes : List Str) : List (Str × Entries) → HeaderMap → Except Err HeaderMap
  | [], m => .ok m
  | (pfx, es) :: rest, m =>
    if prefixes.contains pfx then do
      let m ← addEntries pfx es m
      addExtensions prefixes rest m
    else addExtensions prefixes rest m

/-- `get_config_extension_propagation_headers`, config_extension_ext.rs:95-129. `prefixes` are the
registered prefixes, `exts` the extensions of the session by prefix. -/
def propagationHeaders (prefixes : List Str) (exts : List (Str × Entries)) : Except Err HeaderMap :=
  if prefixes.isEmpty then .ok [] else addExtensions prefixes exts []

/-- `set_passthrough_headers`, passthrough_headers.rs:15-31: the headers kept in the session. -/
def setPassthrough (headers : HeaderMap) : Except Err HeaderMap :=
  if headers.any fun h => configPrefix.isPrefixOf h.1 then .error (.plan "reserved prefix")
  else .ok headers

/-- The headers sent with a task, query_coordinator.rs:168-169. -/
def taskHeaders (prefixes : List Str) (exts : List (Str × Entries)) (passthrough : HeaderMap) :
    Except Err HeaderMap := do
  let headers ← propagationHeaders prefixes exts
  .ok (extend headers passthrough)

/-! ### Worker -/

/-- A type of configuration extension (`ConfigExtension`): its prefix, keys, how to read and set one
option. The values are strings, as in `ConfigEntry` and `ExtensionOptions::set`. DataFusion. -/
structure ExtType where
  State : Type
  pfx : Str
  keys : List Str
  get : State → Str → Option Str
  set : State → Str → Str → Except Err State

/-- `ExtensionOptions::entries`. DataFusion. -/
def ExtType.entries (E : ExtType) (s : E.State) : Entries := E.keys.map fun k => (k, E.get s k)

/-- The body of the loop of `set_distributed_option_extension_from_headers`,
config_extension_ext.rs:63-78. -/
def applyHeader (E : ExtType) (s : E.State) (h : Str × Str) : Except Err E.State :=
  let key := trimStartMatches configPrefix h.1
  if (E.pfx ++ ['.']).isPrefixOf key then
    let key := trimStartMatches (E.pfx ++ ['.']) key
    if !E.keys.contains key then .ok s
    else if h.2.all visible then E.set s key h.2
    else .error (.internal "Cannot parse header value")
  else .ok s

/-- `set_distributed_option_extension_from_headers`, config_extension_ext.rs:24-88. `before` is the
extension already in the session, or the default. -/
def fromHeaders (E : ExtType) : E.State → HeaderMap → Except Err E.State
  | s, [] => .ok s
  | s, h :: hs => do
    let s ← applyHeader E s h
    fromHeaders E s hs

end DD.Headers
