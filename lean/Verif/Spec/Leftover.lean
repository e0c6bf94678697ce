import Verif.Spec.Running
import Verif.Model.Steps

set_option autoImplicit false

/-! # What a parse leaves behind in the reader -/

namespace Ebnf.Spec

/-- The number of marks that the reader keeps (the entries of `UnreadBuffer::stack`). -/
def liveMarks (r : Reader) : Nat := r.buffer.stack.length

/-- `reset_to_mark(k)` would succeed, and move back by `n` characters. -/
def GoesBack (r : Reader) (k n : Nat) : Prop := (perform (.resetToMark k) r).1 = .num n

/-- The full property: whatever the text, after `parse` has returned, the numbers with which one can go back are those with which one
could before. -/
def KeepsMarks (dbg : Bool) (m : Machine) : Prop :=
  ∀ r here text fuel, InputAt dbg r here text → (m.parse fuel r).1 ≠ .diverge →
    ∀ k, (∃ n, GoesBack (m.parse fuel r).2 k n) ↔ (∃ n, GoesBack r k n)

/-- Whatever a scanner is called for, and on whatever reader, it leaves at most `k` marks. -/
def LeavesAtMost (k : Nat) (s : SpecialScanner) : Prop := ∀ definition r, liveMarks (s.scan definition r).2 ≤ liveMarks r + k

/-- A parser made, with the configuration, for a rule of some syntax read from a text. -/
def ParserOf (config : Config) (m : Machine) : Prop :=
  ∃ rules s g query, (∀ r ∈ rules, RuleShape r) ∧ Syntax.new rules = .ok s ∧ Graph.compile s config = .ok g ∧
    Machine.new g query = .ok (some m)

mutual
/-- No choice, no repetition, no exception, no special sequence. -/
def StraightPrimary : Primary → Prop
  | .grouped _ l => StraightList l
  | .metaIdentifier _ _ => True
  | .terminalString _ _ => True
  | .empty _ => True
  | _ => False
/-- No choice, no repetition, no exception, no special sequence. -/
def StraightTerms : SingleDefinition → Prop
  | .nil => True
  | .cons (.plain (.mk n p)) d => n = 1 ∧ StraightPrimary p ∧ StraightTerms d
  | .cons (.except _ _) _ => False
/-- No choice, no repetition, no exception, no special sequence. -/
def StraightList : DefinitionList → Prop
  | .cons d .nil => StraightTerms d
  | _ => False
end

end Ebnf.Spec
