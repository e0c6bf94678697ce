import Verif.Proofs.Unruly
import Verif.Proofs.Running

set_option autoImplicit false

/-! # C110: scanners that do what they like -/

namespace Ebnf.Props

open Ebnf Ebnf.Spec Ebnf.Unruly

private theorem made {config : Config} {rules : List SyntaxRule} {m : Machine} (hm : MadeFrom config rules m) (hd : AllDefined rules)
    (hc : ∀ l t d, ByCalls ((config l t).scan d)) : Complete m.graph ∧ Scanners m.graph ∧ There m.graph m.entry := by
  obtain ⟨hr, s, g, query, h1, h2, h3⟩ := hm
  have h4 := machine_graph h3
  rw [h4]
  have h5 := complete_compiled hr hd h1 h2
  exact ⟨h5, scanners_compiled hr h1 h2 hc, h4 ▸ entry_there h5 h3⟩

/-- C110: whatever the scanners do with the reader, all that `parse` does to the reader is to call its methods; in a release build it panics only if
one of these calls does.  (In any build, over any source, from any state of the reader.) -/
theorem c110_only_calls {config : Config} {rules : List SyntaxRule} {m : Machine} (hm : MadeFrom config rules m) (hd : AllDefined rules)
    (hc : ∀ l t d, ByCalls ((config l t).scan d)) (fuel : Nat) : ByCalls (m.parse fuel) := by
  obtain ⟨h1, h2, h3⟩ := made hm hd hc
  exact calls_parse h1 h2 h3 fuel

/-- C110: in a release build `parse` does not panic, whatever the scanners do with the reader, whatever the source does, after any history. -/
theorem c110_no_panic {config : Config} {rules : List SyntaxRule} {m : Machine} (hm : MadeFrom config rules m) (hd : AllDefined rules)
    (hc : ∀ l t d, ByCalls ((config l t).scan d)) (location : Location) (s : Source) (ops : List ReaderOp) (fuel : Nat) (p : Panic) :
    (m.parse fuel (performAll ops (Reader.withLocation location s false)).2).1 ≠ .panic p := by
  intro h
  obtain ⟨more, _, h2⟩ := c110_only_calls hm hd hc fuel (performAll ops (Reader.withLocation location s false)).2
  rcases h2 p h with h3 | h3
  · rw [performAll_build] at h3; cases h3
  · refine release_no_crash location s (ops ++ more) ?_
    rw [performAll_append]
    exact List.mem_append.mpr (.inr h3)

/-- C110: afterwards the reader is one that a history of calls leads to: it stands somewhere in the same text, and reports the line and column of that
place; only its position and its marks are up to the scanners. -/
theorem c110_still_a_reader {config : Config} {rules : List SyntaxRule} {m : Machine} (hm : MadeFrom config rules m) (hd : AllDefined rules)
    (hc : ∀ l t d, ByCalls ((config l t).scan d)) (location : Location) (s : Source) (text : Str) (faults : List Nat) (h : Supplies s text faults)
    (ops : List ReaderOp) (fuel : Nat) :
    ∃ more as c left, FaultySteps ⟨location, text, 0, []⟩ faults (ops ++ more) as c left ∧ c.pos ≤ text.length ∧
      (perform .location (m.parse fuel (performAll ops (Reader.withLocation location s false)).2).2).1 =
        .location (lineColumn location (text.take c.pos)) := by
  obtain ⟨more, h1, _⟩ := c110_only_calls hm hd hc fuel (performAll ops (Reader.withLocation location s false)).2
  obtain ⟨h2, h3⟩ := supplies_steady h location false
  obtain ⟨c, h4, h5⟩ := performAll_faulty (ops ++ more) h2
  rw [h3] at h4
  have ht := faulty_text h4
  refine ⟨more, _, c, _, h4, ?_, ?_⟩
  · have := h5.1.pos_le
    rw [ht.2] at this
    exact this
  · rw [h1]
    have h6 := h5.1.loc
    rw [performAll_append] at h6
    simp only [perform, Reader.location, answer]
    have h7 : (steady (performAll more (performAll ops (Reader.withLocation location s false)).2).2).buffer.location =
      (performAll more (performAll ops (Reader.withLocation location s false)).2).2.buffer.location := rfl
    rw [← h7, h6, Cursor.location, ht.1, ht.2]

/-- C110: whatever the scanners do, what is accepted has been read to its end. -/
theorem c110_accepts_at_end {config : Config} {rules : List SyntaxRule} {m : Machine} (hm : MadeFrom config rules m) (hd : AllDefined rules)
    (hc : ∀ l t d, ByCalls ((config l t).scan d)) (location : Location) (s : Source) (text : Str) (faults : List Nat) (h : Supplies s text faults)
    (ops : List ReaderOp) (fuel : Nat) (evs : List Event) (r' : Reader)
    (hok : m.parse fuel (performAll ops (Reader.withLocation location s false)).2 = (.ok evs, r')) :
    (perform .location r').1 = .location (lineColumn location text) ∧
    ∃ more as c left, FaultySteps ⟨location, text, 0, []⟩ faults (ops ++ more) as c left ∧ c.pos = text.length := by
  obtain ⟨h1, h2, h3⟩ := made hm hd hc
  obtain ⟨more, _, h5⟩ := accepted_calls h1 h2 h3 hok
  obtain ⟨h6, h7⟩ := supplies_steady h location false
  obtain ⟨c, h8, h9⟩ := performAll_faulty (ops ++ more) h6
  obtain ⟨c', h10, h11⟩ := performAll_faulty [.isEof] h9
  have ht := faulty_text h8
  rw [h7] at h8
  have hr : (performAll (ops ++ more) (Reader.withLocation location s false)).2 =
      (performAll more (performAll ops (Reader.withLocation location s false)).2).2 := by rw [performAll_append]
  rw [hr] at h10 h11
  simp only [performAll, h5] at h10 h11
  have key : ∀ f1 f2 as, as = [ReaderAns.bool true] → FaultySteps c f1 [.isEof] as c' f2 → c' = c ∧ c.rest = [] := by
    intro f1 f2 as ha hs
    cases hs with
    | step hs hn =>
      cases hn
      cases hs
      simp only [List.cons.injEq, ReaderAns.bool.injEq, decide_eq_true_eq, and_true] at ha
      exact ⟨rfl, ha⟩
    | fault _ hn => simp at ha
  have hend := key _ _ _ rfl h10
  obtain ⟨rfl, hrest⟩ := hend
  have hle := h9.1.pos_le
  have hp : c'.pos = text.length := by
    rw [Cursor.rest, List.drop_eq_nil_iff] at hrest
    rw [ht.2] at hle hrest
    exact Nat.le_antisymm hle hrest
  refine ⟨?_, more, _, c', _, h8, hp⟩
  have h12 : r'.buffer.location = c'.location := h11.1.loc
  simp only [perform, Reader.location, answer, h12, Cursor.location, ht.1, ht.2, hp, List.take_length]

/-- C110: a scanner that is a program, which calls methods of the reader and decides what to do next by their answers, is such a scanner. -/
theorem c110_programs (next : List ReaderAns → Move) (fuel : Nat) : ByCalls (follow next fuel []) := follow_calls next fuel []

/-- C110: so are the scanners of the library. -/
theorem c110_library {s : SpecialScanner} (h : LibraryScanner s) (definition : Location) : ByCalls (s.scan definition) := library_calls h definition

/-! ## Examples -/

/-- A scanner that makes these calls and then, whatever they return, returns `x`. -/
private def calling (ops : List ReaderOp) (x : Reaction) : Config := fun _ content =>
  ⟨content, fun _ => follow (fun seen => match ops[seen.length]? with | some op => .call op | none => .finish x) (ops.length + 1) []⟩

private theorem made_from (config : Config) (grammar : String) (h : (sampleMachine config grammar).isSome = true) :
    ∃ rules start m, sampleMachine config grammar = some (rules, start, m) ∧ MadeFrom config rules m := by
  unfold sampleMachine at h ⊢
  cases h1 : parseStr [] grammar.toList with
  | ok rs =>
    rw [h1] at h
    cases rs with
    | nil => cases h
    | cons r rs =>
      simp only at h ⊢
      cases h2 : Syntax.new (r :: rs) with
      | ok s =>
        rw [h2] at h
        simp only at h ⊢
        cases h3 : Graph.compile s config with
        | ok g =>
          rw [h3] at h
          simp only at h ⊢
          cases h4 : Machine.new g r.metaIdentifier with
          | ok m =>
            rw [h4] at h
            cases m with
            | none => cases h
            | some m =>
              exact ⟨_, _, _, rfl, fun x hx => (c12_shape [] grammar.toList _ h1 x hx).1, s, g, _, h2, h3, h4⟩
          | _ => rw [h4] at h; cases h
        | _ => rw [h3] at h; cases h
      | _ => rw [h2] at h; cases h
  | _ => rw [h1] at h; cases h

/-- A scanner that takes the mark away that the machine has set for it: the parse ends with an error. -/
theorem c110_robbed : sampleRun (calling [.unmark 0] (.match [])) "A=?x?,'b';" "b" = .err ⟨⟨[], 1, 1⟩, .invalidMark 0⟩ := by decide +kernel

/-- A scanner that claims not to have matched, and yet makes the three characters it has read vanish: after all marks are gone and the buffer has been
read to its end, the numbers of the marks begin anew, so that the machine goes back to a place after them. -/
theorem c110_vanished : sampleRun (calling [.readChars 3, .resetToMark 0, .resetToMark 0, .readChars 3, .mark, .mark] .unmatch) "A=?x?,'c'|'b';" "aaab" =
    .ok [.begin ⟨[], 1, 1⟩ ⟨[], 1, 1⟩ ['A'], .token ⟨[], 1, 11⟩ ⟨[], 1, 4⟩ ['b'], .end ⟨[], 1, 1⟩ ⟨[], 1, 5⟩ ['A']] := by decide +kernel

/-- The hypotheses are met by the parser of the last example. -/
example : ∃ rules m, MadeFrom (calling [.readChars 3, .resetToMark 0, .resetToMark 0, .readChars 3, .mark, .mark] .unmatch) rules m ∧ AllDefined rules ∧
    (∀ l t d, ByCalls ((calling [.readChars 3, .resetToMark 0, .resetToMark 0, .readChars 3, .mark, .mark] .unmatch l t).scan d)) ∧
    ∃ evs, (m.parse 100 (readerOn "aaab")).1 = .ok evs := by
  obtain ⟨rules, start, m, h1, h2⟩ := made_from (calling [.readChars 3, .resetToMark 0, .resetToMark 0, .readChars 3, .mark, .mark] .unmatch)
    "A=?x?,'c'|'b';" (by decide +kernel)
  refine ⟨rules, m, h2, ?_, fun _ _ _ => c110_programs _ _, ?_⟩
  · have h3 : (match sampleMachine (calling [.readChars 3, .resetToMark 0, .resetToMark 0, .readChars 3, .mark, .mark] .unmatch) "A=?x?,'c'|'b';" with
        | some (rs, _, _) => rs.flatMap (fun (r : SyntaxRule) => primariesOfList r.definitionList) | none => []).all
        (fun p => match p with | .metaIdentifier _ _ => false | _ => true) = true := by decide +kernel
    rw [h1] at h3
    intro r hr l n hn
    have := List.all_eq_true.mp h3 _ (List.mem_flatMap.mpr ⟨r, hr, hn⟩)
    cases this
  · have h4 := c110_vanished
    rw [sampleRun, h1] at h4
    exact ⟨_, h4⟩

end Ebnf.Props
