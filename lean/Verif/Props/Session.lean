import Verif.Proofs.Session

set_option autoImplicit false

/-! # C71: several parsers and other callers may use one reader in turn -/

namespace Ebnf.Props

open Ebnf Ebnf.Spec

variable {dbg : Bool}

private theorem observed_at {r : Reader} {c : Cursor} (h : Stands dbg r c) : Observed r c.location c.rest := by
  refine ⟨?_, fun n => ?_⟩
  · simp only [perform, Reader.location, answer, h.1.loc]
  · obtain ⟨r', h1, _⟩ := peek_at h n
    simp only [perform, h1, answer]

/-- C71: whatever operations and parses a fresh reader is used for, one after the other, as long as none panics or runs out of stack every
one returns what it should at the place where the previous ones left the reader.  A parse leaves all marks of its caller valid. -/
theorem c71_session {location : Location} {source : Source} {whole : Str} (hd : Delivers source whole) (actions : List Action)
    (hp : ∀ m fuel, .parse m fuel ∈ actions → ∃ G start, ParserFor dbg G start m)
    (hn : ∀ x ∈ (actAll actions (Reader.withLocation location source dbg)).1, ¬ x.IsStop) :
    ∃ c, SessionSteps dbg ⟨location, whole, 0, []⟩ actions (actAll actions (Reader.withLocation location source dbg)).1 c ∧
      Observed (actAll actions (Reader.withLocation location source dbg)).2 c.location c.rest := by
  obtain ⟨c, h1, h2⟩ := actAll_at actions ⟨(new_rep (location := location) hd dbg).toRep, rfl⟩ hp hn
  exact ⟨c, h1, observed_at h2⟩

/-- C71: a caller who marks the place, lets a parser try, and goes back to the mark, is back at the place, whether the parser accepted or
not; and any other parser now returns exactly what it would have returned in the beginning. -/
theorem c71_retry {G : Language} {start : SyntaxRule} {m : Machine} (hm : ParserFor dbg G start m) {r : Reader} {here : Location}
    {text : Str} (hi : InputAt dbg r here text) {fuel : Nat} :
    ∃ k r1, Reader.mark r = (.ok k, r1) ∧
      (¬ (Reply.parse (m.parse fuel r1).1).IsStop →
        ∃ back r2, Reader.resetToMark k (m.parse fuel r1).2 = (.ok back, r2) ∧ Observed r2 here text ∧
          ∀ G' start' m', ParserFor dbg G' start' m' → ∀ x, Returns m' r2 x ↔ Returns m' r x) := by
  obtain ⟨c, hs, rfl, rfl⟩ := input_stands hi
  obtain ⟨k, r1, h1, h2⟩ := mark_at hs
  refine ⟨k, r1, h1, fun hn => ?_⟩
  obtain ⟨_, _, hb, _⟩ := parser_linked hm
  obtain ⟨pos, more, h3, _⟩ := parse_leaves hb fuel h2 hn
  obtain ⟨back, r2, own, h4, h5⟩ := reset_back h3
  refine ⟨back, r2, h4, (observed_at h5 :), fun G' start' m' hp x => ?_⟩
  rw [returns_iff hp hi x, returns_at hp h5]
  exact Iff.rfl

/-- A mark taken inside the text, a parse of the rest that fails, the way back, another parse from there that succeeds. -/
private def session (m m' : Machine) : List Action :=
  [.op .read, .op .mark, .parse m 50, .op (.resetToMark 1), .parse m' 50, .op .isEof]

private def at_ (column : Nat) : Location := ⟨[], 1, column⟩

private def replies : List Reply :=
  [.op (.char (some 'x')), .op (.num 1), .parse (.err ⟨at_ 3, .expected "\"c\"".toList (.text ['b'] false)⟩), .op (.num 1),
    .parse (.ok [.begin (at_ 1) (at_ 2) ['B'], .token (at_ 4) (at_ 2) ['a'], .token (at_ 8) (at_ 3) ['b'], .end (at_ 1) (at_ 4) ['B']]),
    .op (.bool true)]

private def sessionRun : Option (List Reply) :=
  match sampleMachine .default "A='a','c';", sampleMachine .default "B={'a'|'b'};" with
  | some (_, _, m), some (_, _, m') => some (actAll (session m m') (readerOn "xab")).1
  | _, _ => none

/-- The hypotheses of `c71_session` are met by this session. -/
example : ∃ m m', (∀ x fuel, .parse x fuel ∈ session m m' → ∃ G start, ParserFor false G start x) ∧
    (actAll (session m m') (readerOn "xab")).1 = replies ∧ ∀ x ∈ (actAll (session m m') (readerOn "xab")).1, ¬ x.IsStop := by
  have h : sessionRun = some replies := by decide +kernel
  unfold sessionRun at h
  cases h1 : sampleMachine .default "A='a','c';" with
  | none => rw [h1] at h; simp at h
  | some x =>
    cases h2 : sampleMachine .default "B={'a'|'b'};" with
    | none => rw [h1, h2] at h; simp at h
    | some y =>
      obtain ⟨rules, start, m⟩ := x
      obtain ⟨rules', start', m'⟩ := y
      rw [h1, h2] at h
      simp only [Option.some.injEq] at h
      have p1 := (sampleMachine_parser .default _ _ (fun _ => plain_realizes _) _ _ _ _ h1).2.1
      have p2 := (sampleMachine_parser .default _ _ (fun _ => plain_realizes _) _ _ _ _ h2).2.1
      refine ⟨m, m', ?_, h, ?_⟩
      · intro x fuel hx
        simp only [session, List.mem_cons, Action.parse.injEq, reduceCtorEq, false_or, List.not_mem_nil, or_false] at hx
        rcases hx with ⟨rfl, _⟩ | ⟨rfl, _⟩
        · exact ⟨_, _, p1⟩
        · exact ⟨_, _, p2⟩
      · rw [h]
        intro x hx
        simp only [replies, List.mem_cons, List.not_mem_nil, or_false] at hx
        rcases hx with rfl | rfl | rfl | rfl | rfl | rfl <;> simp [Reply.IsStop]

end Ebnf.Props
