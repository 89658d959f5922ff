import Verif.Model.Cell
/-
Model of `/repo/src/filter.rs`.  A compiled regular expression is the set of texts it matches
(`Str → Bool`); compiling is a parameter (`none`: the pattern is rejected).
-/
namespace Notatin

/-- `str::to_ascii_lowercase`. -/
def asciiLower (s : Str) : Str :=
  s.map fun c => if 'A' ≤ c ∧ c ≤ 'Z' then Char.ofNat (c.toNat + 32) else c

/-- `str::split('\\')`. -/
def splitBackslash : Str → List Str
  | [] => [[]]
  | c :: s =>
    if c = '\\' then [] :: splitBackslash s
    else match splitBackslash s with
      | [] => [[c]]
      | seg :: segs => (c :: seg) :: segs

/-- `str::trim_end_matches('\\')`. -/
def trimEndBackslash (s : Str) : Str := (s.reverse.dropWhile (· == '\\')).reverse

/-- `str::trim_start_matches('\\')`. -/
def trimStartBackslash (s : Str) : Str := s.dropWhile (· == '\\')

/-- `RegQueryComponent`, /repo/src/filter.rs lines 75-79. -/
inductive Component where
  | lit (s : Str)
  | regex (isMatch : Str → Bool)

/-- `RegQuery`, /repo/src/filter.rs lines 152-160. -/
structure RegQuery where
  keyPath : List Component
  hasRoot : Bool
  children : Bool

/-- `Filter`, /repo/src/filter.rs lines 26-29. -/
structure Filter where
  query : Option RegQuery := none

/-- `Filter::is_valid`, /repo/src/filter.rs lines 36-38. -/
def Filter.isValid (f : Filter) : Bool := f.query.isSome

/-- `Filter::return_sub_keys`, /repo/src/filter.rs lines 67-72. -/
def Filter.returnSubKeys (f : Filter) : Bool :=
  match f.query with
  | some q => q.children
  | none => false

/-- `FilterBuilder`, /repo/src/filter.rs lines 81-87 (of the regex errors only their number). -/
structure FilterBuilder where
  keyPath : List Component := []
  hasRoot : Bool := false
  children : Bool := false
  regexErrors : Nat := 0

namespace FilterBuilder

/-- `add_literal_segment_internal`, /repo/src/filter.rs lines 111-115. -/
def pushLit (b : FilterBuilder) (segment : Str) : FilterBuilder :=
  { b with keyPath := b.keyPath ++ [.lit (asciiLower segment)] }

/-- `add_key_path`, /repo/src/filter.rs lines 99-104. -/
def addKeyPath (b : FilterBuilder) (keyPath : Str) : FilterBuilder :=
  (splitBackslash (trimEndBackslash keyPath)).foldl pushLit b

/-- `add_literal_segment`, /repo/src/filter.rs lines 106-109. -/
def addLiteralSegment (b : FilterBuilder) (segment : Str) : FilterBuilder :=
  pushLit b (trimEndBackslash (trimStartBackslash segment))

/-- `add_regex_segment`, /repo/src/filter.rs lines 117-123. -/
def addRegexSegment (compile : Str → Option (Str → Bool)) (b : FilterBuilder) (regex : Str) :
    FilterBuilder :=
  match compile (asciiLower regex) with
  | some r => { b with keyPath := b.keyPath ++ [.regex r] }
  | none => { b with regexErrors := b.regexErrors + 1 }

/-- `key_path_has_root`, /repo/src/filter.rs lines 125-128. -/
def keyPathHasRoot (b : FilterBuilder) (v : Bool) : FilterBuilder := { b with hasRoot := v }

/-- `return_child_keys`, /repo/src/filter.rs lines 130-133. -/
def returnChildKeys (b : FilterBuilder) (v : Bool) : FilterBuilder := { b with children := v }

/-- `build`, /repo/src/filter.rs lines 135-149. -/
def build (b : FilterBuilder) : Res Filter :=
  if b.regexErrors = 0 then
    .ok { query := some { keyPath := b.keyPath, hasRoot := b.hasRoot, children := b.children } }
  else .err

end FilterBuilder

/-- The values of `FilterFlags` that occur (/repo/src/filter.rs lines 201-208):
`FILTER_NO_MATCH`, `FILTER_ITERATE_KEYS`, `FILTER_ITERATE_KEYS | FILTER_KEY_MATCH`. -/
inductive FilterFlags where
  | noMatch | iterate | keyMatch
deriving Repr, DecidableEq

/-- One component against one path segment, /repo/src/filter.rs lines 173-188. -/
def Component.accepts : Component → Str → Bool
  | .lit s, seg => s == asciiLower seg
  | .regex r, seg => r (asciiLower seg)

/-- The segment loop of `check_key_match`, /repo/src/filter.rs lines 171-197. -/
def matchSegments : List Component → List Str → FilterFlags
  | [], [] => .keyMatch
  | _ :: _, [] => .iterate
  | [], _ :: _ => .noMatch
  | c :: cs, seg :: segs => if c.accepts seg then matchSegments cs segs else .noMatch

/-- `check_key_match`, /repo/src/filter.rs lines 163-198; slicing the path at the root offset
panics when the offset is not inside the path. -/
def RegQuery.checkKeyMatch (q : RegQuery) (keyPath : Str) (rootOffset : Nat) : Res FilterFlags :=
  match dropBytes (if q.hasRoot then 0 else rootOffset) keyPath with
  | none => .panic
  | some rest => .ok (matchSegments q.keyPath (splitBackslash rest))

/-- `State::get_root_path_offset`, /repo/src/state.rs lines 169-174: the offset is computed from
the first path that yields a non-zero one and then kept. Returns the new cached value, which is
also the result. -/
def cachedRootOffset (cached : Nat) (keyPath : Str) : Nat :=
  if cached = 0 then getRootPathOffset keyPath else cached

/-- `Filter::check_cell`, `match_cell` and `match_key`, /repo/src/filter.rs lines 40-65, on what
they use of the cell: whether it carries the root flag, and its path.  Also returns the cached
root offset of the state. -/
def Filter.checkCell (f : Filter) (rootOffset : Nat) (isKeyRoot : Bool) (path : Str) :
    Res (FilterFlags × Nat) :=
  match f.query with
  | none => .ok (.iterate, rootOffset)
  | some q =>
    if isKeyRoot && !q.hasRoot then .ok (.iterate, rootOffset)
    else
      let keyPath := asciiLower path
      let rootOffset := cachedRootOffset rootOffset keyPath
      match q.checkKeyMatch keyPath rootOffset with
      | .ok flags => .ok (flags, rootOffset)
      | .err => .err
      | .panic => .panic

end Notatin
