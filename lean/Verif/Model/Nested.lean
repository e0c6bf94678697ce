import Verif.Model.Graph
import Verif.Model.Api

set_option autoImplicit false

/-! # Reading, printing and compiling a grammar with a bounded call stack — src/lex/mod.rs, src/parser/graph.rs

Brackets are read by recursion (`read_definition_list` … `read_enclosed_definition_list` and back), and printed (`Display`) and compiled
(`register_definition_list` … `register_syntactic_primary` and back) the same way.  Here the number of such calls that can be nested is bounded; one
call too many is a panic (in Rust: the process is aborted).  A frame of the stack stands for the frames of the functions that are passed from
one bracket to the next one within it.  Everything else in these functions is a loop. -/

namespace Ebnf.Nested

/-- `read_definition_list(tokens, 0)` of what is between brackets — lex/mod.rs:367-382, 568: `room` counts this call. -/
def readDefinitionList : Nat → List Token → Res DefinitionList
  | 0, _ => .panic .stackOverflow
  | room + 1, ts => readDefinitions (readDefinitionList room) (lastLocation ts) (ts.length + 1) ts

/-- `build_syntax_rule` — lex/mod.rs:326-365, with room for `room` nested brackets. -/
def buildSyntaxRule (room : Nat) (tokens : List Token) : Res (Option SyntaxRule) :=
  let (name, location, next) := readMetaIdentifier tokens
  match location, skipGaps next with
  | _, [] => .panic .indexOutOfBounds
  | none, t :: _ =>
    if t.isTerminator then .ok none
    else .fail t.location (.metaIdentifierExpected t.name)
  | some loc, t :: rest =>
    if !t.isDefiningSymbol then .fail t.location (.definingExpected t.name)
    else if name.isEmpty then .panic .emptyMetaIdentifier
    else do
      let list ← readDefinitions (readDefinitionList room) (lastLocation tokens) (rest.length + 1) rest
      pure (some ⟨loc, name, list⟩)

/-- `Lexer::append` — lex/mod.rs:169-183. -/
def append (room : Nat) : List Token → List Token → Res (List SyntaxRule) × List Token
  | tokens, [] => (.ok [], tokens)
  | tokens, t :: ts =>
    let tokens := tokens ++ [t]
    if t.isTerminator then
      match buildSyntaxRule room tokens with
      | .ok r =>
        match append room [] ts with
        | (.ok rules, tokens') => (.ok (r.toList ++ rules), tokens')
        | (e, tokens') => (e, tokens')
      | .err e => (.err e, tokens)
      | .panic p => (.panic p, tokens)
      | .diverge => (.diverge, tokens)
    else append room tokens ts

/-- See `Lexer.feed`. -/
def feed (room : Nat) (m : RM Tokenizer (List Token)) : RM Lexer (List SyntaxRule) := fun l =>
  match m l.tokenizer with
  | (.ok tks, tz) =>
    match append room l.tokens tks with
    | (r, tokens) => (r, ⟨tz, tokens⟩)
  | (.err e, tz) => (.err e, ⟨tz, l.tokens⟩)
  | (.panic p, tz) => (.panic p, ⟨tz, l.tokens⟩)
  | (.diverge, tz) => (.diverge, ⟨tz, l.tokens⟩)

/-- `Lexer::push` — lex/mod.rs:142-146. -/
def push (room : Nat) (ch : Char) : RM Lexer (Option SyntaxRule) := Lexer.first (feed room (Tokenizer.push ch))

/-- `Lexer::push_str` — lex/mod.rs:153-156. -/
def pushStr (room : Nat) (s : Str) : RM Lexer (List SyntaxRule) := feed room (Tokenizer.pushStr s)

/-- `Lexer::flush` — lex/mod.rs:158-162. -/
def flush (room : Nat) : RM Lexer (Option SyntaxRule) := Lexer.first (feed room Tokenizer.flush)

/-- `lex::parse_str` — lex/mod.rs:35-43. -/
def parseStr (room : Nat) (name s : Str) : Res (List SyntaxRule) :=
  ((do
    let rules ← pushStr room s
    let rule ← flush room
    pure (rules ++ rule.toList)) (Lexer.new name)).1

/-- A call for which there may be no room: `f` is called with one frame less. -/
def call {α : Type} (room : Nat) (f : Nat → Res α) : Res α :=
  match room with
  | 0 => .panic .stackOverflow
  | room + 1 => f room

mutual
/-- `Display for SyntacticPrimary` — lex/mod.rs:291-324. -/
def displayPrimary : Primary → Nat → Res Str
  | .optional _ l, room => do
    let s ← call room (displayList l)
    pure ('[' :: s ++ [']'])
  | .repeated _ l, room => do
    let s ← call room (displayList l)
    pure ('{' :: s ++ ['}'])
  | .grouped _ l, room => do
    let s ← call room (displayList l)
    pure ('(' :: s ++ [')'])
  | .metaIdentifier _ s, _ => .ok s
  | .terminalString _ s, _ => .ok (displayQuote s :: s ++ [displayQuote s])
  | .specialSequence _ s, _ => .ok ('?' :: s ++ ['?'])
  | .empty _, _ => .ok []
/-- `Display for SyntacticFactor` — lex/mod.rs:257-264. -/
def displayFactor : Factor → Nat → Res Str
  | .mk r p, room => do
    let s ← displayPrimary p room
    pure ((if r ≠ 1 then Nat.toDigits 10 r ++ ['*'] else []) ++ s)
/-- `Display for SyntacticTerm` — lex/mod.rs:240-249. -/
def displayTerm : Term → Nat → Res Str
  | .plain f, room => displayFactor f room
  | .except f e, room => do
    let s ← displayFactor f room
    let s' ← displayFactor e room
    pure (s ++ '-' :: s')
/-- `Display for SingleDefinition` — lex/mod.rs:222-232. -/
def displaySingle : SingleDefinition → Nat → Res Str
  | .nil, _ => .ok []
  | .cons t .nil, room => displayTerm t room
  | .cons t (.cons t' r), room => do
    let s ← displayTerm t room
    let s' ← displaySingle (.cons t' r) room
    pure (s ++ ',' :: s')
/-- `Display for DefinitionList` — lex/mod.rs:205-215. -/
def displayList : DefinitionList → Nat → Res Str
  | .nil, _ => .ok []
  | .cons d .nil, room => displaySingle d room
  | .cons d (.cons d' r), room => do
    let s ← displaySingle d room
    let s' ← displayList (.cons d' r) room
    pure (s ++ '|' :: s')
end

/-- `Display for SyntaxRule` — lex/mod.rs:193-200. -/
def displayRule (room : Nat) (r : SyntaxRule) : Res Str := do
  let s ← displayList r.definitionList room
  pure (r.metaIdentifier ++ '=' :: s ++ [';'])

/-- The loop of `Display for Syntax` — src/lib.rs:277-281. -/
def displayRules (room : Nat) : List SyntaxRule → Res Str
  | [] => .ok []
  | r :: rs => do
    let s ← displayRule room r
    let s' ← displayRules room rs
    pure (s ++ s')

/-- `Display for Syntax` — src/lib.rs:275-282. -/
def displaySyntax (room : Nat) (s : Syntax) : Res Str := displayRules room s.syntaxRules

mutual
/-- `register_syntactic_primary` — graph.rs:209-288; `primary.to_string()` is computed first, for every primary (line 216). -/
def registerPrimary (config : Config) (steps : List Instruction) (next : Option Nat) :
    Primary → Nat → Res (Nat × List Instruction)
  | .optional loc list, room => do
    let symbol ← displayPrimary (.optional loc list) room
    let (sub, steps) ← call room (registerDefinitionList config steps none list)
    .ok (steps.length, steps ++ [⟨next, symbol, loc, .repetition 0 1 sub⟩])
  | .repeated loc list, room => do
    let symbol ← displayPrimary (.repeated loc list) room
    let (sub, steps) ← call room (registerDefinitionList config steps none list)
    .ok (steps.length, steps ++ [⟨next, symbol, loc, .repetition 0 u32Max sub⟩])
  | .grouped loc list, room => do
    let _ ← displayPrimary (.grouped loc list) room
    call room (registerDefinitionList config steps none list)
  | .metaIdentifier loc name, _ => .ok (steps.length, steps ++ [⟨next, name, loc, .alias name⟩])
  | .terminalString loc s, _ =>
    .ok (steps.length, steps ++ [⟨next, debugStr s, loc, .scan (.terminal s)⟩])
  | .specialSequence loc s, _ =>
    let scanner := config loc s
    .ok (steps.length, steps ++ [⟨next, scanner.symbol, loc, .scan (.special scanner)⟩])
  | .empty loc, _ => .ok (steps.length, steps ++ [⟨next, "EMPTY".toList, loc, .scan .empty⟩])
/-- `register_syntactic_factor` — graph.rs:182-207. -/
def registerFactor (config : Config) (steps : List Instruction) (next : Option Nat) :
    Factor → Nat → Res (Nat × List Instruction)
  | .mk n p, room =>
    if n = 1 then registerPrimary config steps next p room
    else do
      let (sub, steps) ← registerPrimary config steps none p room
      let symbol ← displayFactor (.mk n p) room
      .ok (steps.length, steps ++ [⟨next, symbol, p.location, .repetition n n sub⟩])
/-- `register_syntactic_term` — graph.rs:155-180. -/
def registerTerm (config : Config) (steps : List Instruction) (next : Option Nat) :
    Term → Nat → Res (Nat × List Instruction)
  | .except f e, room => do
    let (factor, steps) ← registerFactor config steps none f room
    let (exception, steps) ← registerFactor config steps none e room
    let symbol ← displayTerm (.except f e) room
    .ok (steps.length, steps ++ [⟨next, symbol, f.primary.location, .scan (.exception factor exception)⟩])
  | .plain f, room => registerFactor config steps next f room
/-- The loop of `register_single_definition` — graph.rs:147-151. -/
def registerTerms (config : Config) (steps : List Instruction) (next : Option Nat) :
    SingleDefinition → Nat → Res (Option Nat × List Instruction)
  | .nil, _ => .ok (next, steps)
  | .cons t rest, room => do
    let (next, steps) ← registerTerms config steps next rest room
    let (index, steps) ← registerTerm config steps next t room
    .ok (some index, steps)
/-- The loop of `register_definition_list` — graph.rs:122-126. -/
def registerDefinitions (config : Config) (steps : List Instruction) (next : Option Nat) :
    DefinitionList → Nat → Res (List (Nat × Str) × List Instruction)
  | .nil, _ => .ok ([], steps)
  | .cons d rest, room => do
    if d = .nil then .panic .emptyDefinition else
    let (index, steps) ← registerTerms config steps next d room
    match index with
    | none => .panic .missing
    | some index =>
      match steps[index]? with
      | none => .panic .missing
      | some instr =>
        let (more, steps) ← registerDefinitions config steps next rest room
        .ok ((index, instr.symbol) :: more, steps)
/-- `register_definition_list` — graph.rs:110-138. -/
def registerDefinitionList (config : Config) (steps : List Instruction) (next : Option Nat) :
    DefinitionList → Nat → Res (Nat × List Instruction)
  | .cons d .nil, room => do
    if d = .nil then .panic .emptyDefinition else
    let (index, steps) ← registerTerms config steps next d room
    match index with
    | none => .panic .missing
    | some index => .ok (index, steps)
  | .nil, _ =>
    match steps.getLast? with
    | none => .panic .emptyDefinitionList
    | some last => .ok (steps.length, steps ++ [⟨next, parallelNotation [], last.definition, .or []⟩])
  | .cons d (.cons d' rest), room => do
    if d = .nil then .panic .emptyDefinition else
    let (index, steps) ← registerTerms config steps next d room
    match index with
    | none => .panic .missing
    | some index =>
      match steps[index]? with
      | none => .panic .missing
      | some instr =>
        let (more, steps) ← registerDefinitions config steps next (.cons d' rest) room
        let all := (index, instr.symbol) :: more
        match steps.getLast? with
        | none => .panic .emptyDefinitionList
        | some last =>
          .ok (steps.length, steps ++
            [⟨next, parallelNotation (all.map (·.2)), last.definition, .or (all.map (·.1))⟩])
end

/-- The `for` loop of `LexGraph::compile` — graph.rs:68-85. -/
def compileLoop (room : Nat) (s : Syntax) (config : Config) : List SyntaxRule → Graph → Res Graph
  | [], g => .ok g
  | r :: rs, g => do
    let id := keyedMetaIdentifier r.metaIdentifier
    match s.canonicalName r.metaIdentifier with
    | none => .panic .missing
    | some canonicalName =>
      let (index, steps) ← registerDefinitionList config g.instructions none r.definitionList room
      compileLoop room s config rs
        { instructions := steps ++ [⟨none, canonicalName, r.location, .alias canonicalName⟩]
          labels := (g.labels.insert id index).insert ('$' :: id) steps.length
          canonicalNames := g.canonicalNames.insert id canonicalName }

/-- `LexGraph::compile` — graph.rs:64-91. -/
def compile (room : Nat) (s : Syntax) (config : Config) : Res Graph :=
  compileLoop room s config s.syntaxRules ⟨[], [], []⟩

end Ebnf.Nested
