import Verif.Model.Basic

/-! # Meta-identifiers and gap characters -/

namespace Ebnf

/-- `is_gap_separator_char` — src/lex/mod.rs:737-744. -/
def isGapChar (ch : Char) : Bool :=
  ch == ' ' || ch == '\t' || ch == '\r' || ch == '\n' || ch == '\x0B' || ch == '\x0C'

/-- Loop of `normalized_meta_identifier` — src/lib.rs:458-468.  Returns the final `buffer` and
`whitespace_right_before`. -/
def normalizeLoop : Str → Str → Bool → Str × Bool
  | [], buffer, ws => (buffer, ws)
  | ch :: rest, buffer, ws =>
    if isGapChar ch then
      if !ws then normalizeLoop rest (buffer ++ [' ']) true
      else normalizeLoop rest buffer ws
    else normalizeLoop rest (buffer ++ [ch]) false

/-- `normalized_meta_identifier` — src/lib.rs:455-473. -/
def normalizedMetaIdentifier (s : Str) : Str :=
  let (buffer, ws) := normalizeLoop s [] true
  if ws && !buffer.isEmpty then buffer.take (buffer.length - 1) else buffer

/-- `keyed_meta_identifier` — src/lib.rs:486-491. -/
def keyedMetaIdentifier (s : Str) : Str := s.filter (fun ch => !isGapChar ch)

end Ebnf
