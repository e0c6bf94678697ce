import Verif.Proofs.Relocate

set_option autoImplicit false

/-! # The place of a grammar text matters for reported places only (C86) -/

namespace Ebnf.Props

open Ebnf Ebnf.Spec

/-! ## C86 — The name of the source and the text in front of it only move the reported places -/

private theorem unknown_behind {name : Str} (hn : name ≠ "<unknown>".toList) (stop : Location) :
    behind name stop (Location.new "<unknown>".toList) = Location.new "<unknown>".toList := by
  unfold behind
  rw [if_neg]
  exact fun h => hn h.symm

/-- The name given to a text appears in the reported places and has no other effect: parsing under another
name gives the same rules, or the same error, panic included, with the other name in its places.
(`<unknown>` is the name the library itself uses in trees for an empty pair of brackets.) -/
theorem c86_name (name other text : Str) (hn : name ≠ "<unknown>".toList) :
    parseStr other text = relocated (calledBy name other) (parseStr name text) := by
  have hu : calledBy name other (Location.new "<unknown>".toList) = Location.new "<unknown>".toList := by
    unfold calledBy
    rw [if_neg]
    exact fun h => hn h.symm
  have h := (feedAll_moves (calledBy_follows name other) hu [text] (Lexer.new name) rfl).2
  have hl : mapLexer (calledBy name other) (Lexer.new name) = Lexer.new other := by
    simp [mapLexer, Lexer.new, Tokenizer.new, Tokenizer.withCapacity, calledBy, Location.new, Location.withLocation]
  rw [hl] at h
  rw [parseStr_eq_feedAll, parseStr_eq_feedAll, h]

private theorem feedAll_idle {name : Str} (hn : name ≠ "<unknown>".toList) (stop : Location) (hs : stop.name = name)
    (chunks : List Str) : (feedAll chunks (idle 0 stop)).1 = relocated (behind name stop) (feedAll chunks (Lexer.new name)).1 := by
  have h := (feedAll_moves (behind_follows name stop hs) (unknown_behind hn stop) chunks (Lexer.new name)
    ⟨rfl, Nat.le_refl 1, Nat.le_refl 1⟩).2
  have hl : mapLexer (behind name stop) (Lexer.new name) = idle 0 stop := by
    simp [mapLexer, Lexer.new, Tokenizer.new, Tokenizer.withCapacity, idle, behind_start hs]
  rw [hl] at h
  rw [h]

/-- Grammar texts can be put together: behind an accepted text that ends with a terminator, another text is
read as if it stood alone.  The rules of the first are followed by the rules of the second, and an error or
panic of the second is that of the whole; the places of the second are counted on from the end of the
first. -/
theorem c86_behind (name a b : Str) (hn : name ≠ "<unknown>".toList) (rules : List SyntaxRule)
    (ha : parseStr name a = .ok rules) (c : Char) (hc : c ∈ [';', '.']) (hl : a.getLast? = some c) :
    parseStr name (a ++ b) =
      following rules (relocated (behind name (lineColumn (Location.new name) a)) (parseStr name b)) := by
  rw [parseStr_eq_feedAll] at ha
  rw [parseStr_eq_feedAll, parseStr_eq_feedAll]
  have h := feedAll_behind (b := b) hc (loc := Location.new name) ha hl
  rw [show Lexer.new name = idle 0 (Location.new name) from rfl, h, feedAll_idle hn _ (pushStr_name _ _),
    Location.pushStr_eq_lineColumn]
  rfl

/-- The same for a lexer that is fed piece by piece, however both texts are cut into pieces. -/
theorem c86_pieces (name : Str) (as bs : List Str) (hn : name ≠ "<unknown>".toList) (rules : List SyntaxRule)
    (ha : (feedAll as (Lexer.new name)).1 = .ok rules) (c : Char) (hc : c ∈ [';', '.'])
    (hl : as.flatten.getLast? = some c) :
    (feedAll (as ++ bs) (Lexer.new name)).1 =
      following rules
        (relocated (behind name (lineColumn (Location.new name) as.flatten)) (feedAll bs (Lexer.new name)).1) := by
  have h1 : (feedAll [as.flatten] (idle 0 (Location.new name))).1 = .ok rules := by
    have : feedAll as (Lexer.new name) = (.ok rules, (feedAll as (Lexer.new name)).2) := Prod.ext ha rfl
    have := (feedAll_flatten (new_unlimited name) (new_inv name)).mp this
    exact congrArg Prod.fst this
  obtain ⟨h2, _⟩ := complete_idle hc h1 hl
  have h3 := (pushAll_flatten (chunks := as) (new_unlimited name) (new_inv name)).mpr h2
  rw [← Location.pushStr_eq_lineColumn, ← feedAll_idle hn _ (pushStr_name _ _)]
  simp only [feedAll, RM.bind_run, pushAll_append, h3]
  rcases pushAll bs (idle 0 ((Location.new name).pushStr as.flatten)) with ⟨r, l1⟩
  cases r with
  | ok r =>
    simp only [following]
    rcases Lexer.flush l1 with ⟨o, l2⟩
    cases o <;> simp
  | _ => rfl

/-- A whole list of accepted texts, each ending with a terminator, makes one accepted text; its rules are
those of the texts, in order. -/
theorem c86_many (name : Str) (hn : name ≠ "<unknown>".toList) (texts : List (Str × List SyntaxRule))
    (h : ∀ t ∈ texts, parseStr name t.1 = .ok t.2 ∧ ∃ c ∈ [';', '.'], t.1.getLast? = some c) :
    ∃ rules, parseStr name (texts.map Prod.fst).flatten = .ok rules ∧
      rules.map forgetLocations = (texts.map Prod.snd).flatten.map forgetLocations := by
  induction texts with
  | nil => exact ⟨[], rfl, rfl⟩
  | cons t texts ih =>
    obtain ⟨rules, h1, h2⟩ := ih fun u hu => h u (List.mem_cons_of_mem _ hu)
    obtain ⟨h3, c, hc, hl⟩ := h t (List.mem_cons_self ..)
    simp only [List.map_cons, List.flatten_cons]
    rw [c86_behind name t.1 _ hn t.2 h3 c hc hl, h1]
    refine ⟨_, rfl, ?_⟩
    rw [List.map_append, List.map_append, ← h2, List.map_map]
    congr 1
    apply List.map_congr_left
    intro r _
    exact forget_mapRule r

example : parseStr "x".toList "a = 'b';\n".toList = .ok [⟨⟨"x".toList, 1, 1⟩, "a".toList,
    .cons (.cons (.plain (.mk 1 (.terminalString ⟨"x".toList, 1, 5⟩ "b".toList))) .nil) .nil⟩] := by decide +kernel

example : (∃ rules, parseStr "x".toList "a = 'b';".toList = .ok rules) ∧ "a = 'b';".toList.getLast? = some ';' ∧
    parseStr "x".toList "c = d\n.e : 1;".toList = .err ⟨⟨"x".toList, 2, 4⟩, .colonNotAllowed⟩ ∧
    parseStr "x".toList "a = 'b';c = d\n.e : 1;".toList = .err ⟨⟨"x".toList, 2, 4⟩, .colonNotAllowed⟩ ∧
    parseStr "x".toList "e : 1".toList = .err ⟨⟨"x".toList, 1, 3⟩, .colonNotAllowed⟩ ∧
    parseStr "x".toList "a = 'b';e : 1".toList = .err ⟨⟨"x".toList, 1, 11⟩, .colonNotAllowed⟩ := by
  refine ⟨⟨_, rfl⟩, ?_⟩
  decide +kernel

/-- The condition on the name is needed: an empty pair of brackets is placed at line 1, column 1 of
`<unknown>` wherever it stands. -/
example : parseStr "<unknown>".toList "a=b;c=();".toList ≠
    following [⟨⟨"<unknown>".toList, 1, 1⟩, ['a'],
      .cons (.cons (.plain (.mk 1 (.metaIdentifier ⟨"<unknown>".toList, 1, 3⟩ ['b']))) .nil) .nil⟩]
      (relocated (behind "<unknown>".toList ⟨"<unknown>".toList, 1, 5⟩) (parseStr "<unknown>".toList "c=();".toList)) := by
  decide +kernel

end Ebnf.Props
