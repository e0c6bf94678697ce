import Verif.Model.Basic

/-! # Specification: positions in a text, words, gap characters -/

namespace Ebnf.Spec

/-- The line/column reached after reading `pre`, starting at `start`: one more line per newline; the
column restarts at 1 after a newline and otherwise grows by one per character. -/
def lineColumn (start : Location) (pre : Str) : Location where
  name := start.name
  lines := start.lines + pre.count '\n'
  columns :=
    if '\n' ∈ pre then 1 + (pre.reverse.takeWhile (· ≠ '\n')).length
    else start.columns + pre.length

/-- The six gap characters of ISO 14977: space, horizontal tab, carriage return, line feed, vertical
tab, form feed. -/
def gapChars : List Char := [' ', '\t', '\r', '\n', '\x0B', '\x0C']

/-- `SplitsInto s ws`: `ws` are the maximal runs of non-gap characters of `s`, in order. -/
inductive SplitsInto : Str → List Str → Prop
  | gaps {g : Str} : (∀ c ∈ g, c ∈ gapChars) → SplitsInto g []
  | word {g w rest : Str} {ws : List Str} :
      (∀ c ∈ g, c ∈ gapChars) → w ≠ [] → (∀ c ∈ w, c ∉ gapChars) →
      (∀ c, rest.head? = some c → c ∈ gapChars) → SplitsInto rest ws →
      SplitsInto (g ++ w ++ rest) (w :: ws)

/-- Words joined by single spaces. -/
def joinSpace : List Str → Str
  | [] => []
  | [w] => w
  | w :: ws => w ++ ' ' :: joinSpace ws

/-- `DiffersInGaps s t`: `t` is obtained from `s` by inserting and deleting single gap characters. -/
inductive DiffersInGaps : Str → Str → Prop
  | refl (s : Str) : DiffersInGaps s s
  | insert {s : Str} (pre post : Str) (g : Char) : g ∈ gapChars →
      DiffersInGaps s (pre ++ post) → DiffersInGaps s (pre ++ g :: post)
  | delete {s : Str} (pre post : Str) (g : Char) : g ∈ gapChars →
      DiffersInGaps s (pre ++ g :: post) → DiffersInGaps s (pre ++ post)

end Ebnf.Spec
