import Verif.Model.Syntax
import Verif.Model.Scanner

/-! # The graph compiler — src/parser/graph.rs -/

namespace Ebnf

/-- The implementations of `trait Scanner` — graph.rs:23-31, machine.rs:174-336. -/
inductive Scan
  | terminal (s : Str)
  | special (scanner : SpecialScanner)
  | empty
  | exception (factor exception : Nat)

/-- `enum Step` — graph.rs:39-55.  The `location` of `Scan` (position in the Rust source) is dropped. -/
inductive Step
  | repetition (min max subroutine : Nat)
  | or (subroutines : List Nat)
  | scan (scanner : Scan)
  | alias (metaIdentifier : Str)

/-- `struct Instruction` — graph.rs:16-21. -/
structure Instruction where
  next : Option Nat
  symbol : Str
  definition : Location
  step : Step

/-- `u32::MAX`. -/
def u32Max : Nat := 4294967295

/-- `GraphConfig`: the special-sequence factory — graph.rs:290-305, parser/mod.rs:100-118. -/
abbrev Config := Location → Str → SpecialScanner

/-- `GraphConfig::new` — graph.rs:295-299, parser/mod.rs:108-118. -/
def Config.default : Config := fun _ content => defaultScanner content

/-- `words.join(", ")`. -/
def joinComma : List Str → Str
  | [] => []
  | [w] => w
  | w :: ws => w ++ ", ".toList ++ joinComma ws

/-- `parallel_notation(words, "or")` — parser/mod.rs:253-263. -/
def parallelNotation (words : List Str) : Str :=
  match words with
  | [] => []
  | [w] => w
  | [a, b] => a ++ " or ".toList ++ b
  | _ => joinComma words.dropLast ++ ", or ".toList ++ words.getLastD []

/-- `format!("{:?}", s)` for a string of printable ASCII characters, the only ones a terminal string
read by the lexer can contain — used at graph.rs:246. -/
def debugStr (s : Str) : Str :=
  '"' :: s.flatMap (fun c => if c = '"' ∨ c = '\\' then ['\\', c] else [c]) ++ ['"']

mutual
/-- `register_syntactic_primary` — graph.rs:209-288. -/
def registerPrimary (config : Config) (steps : List Instruction) (next : Option Nat) :
    Primary → Res (Nat × List Instruction)
  | .optional loc list => do
    let (sub, steps) ← registerDefinitionList config steps none list
    .ok (steps.length, steps ++
      [⟨next, (Primary.optional loc list).display, loc, .repetition 0 1 sub⟩])
  | .repeated loc list => do
    let (sub, steps) ← registerDefinitionList config steps none list
    .ok (steps.length, steps ++
      [⟨next, (Primary.repeated loc list).display, loc, .repetition 0 u32Max sub⟩])
  | .grouped _ list => registerDefinitionList config steps none list
  | .metaIdentifier loc name => .ok (steps.length, steps ++ [⟨next, name, loc, .alias name⟩])
  | .terminalString loc s =>
    .ok (steps.length, steps ++ [⟨next, debugStr s, loc, .scan (.terminal s)⟩])
  | .specialSequence loc s =>
    let scanner := config loc s
    .ok (steps.length, steps ++ [⟨next, scanner.symbol, loc, .scan (.special scanner)⟩])
  | .empty loc => .ok (steps.length, steps ++ [⟨next, "EMPTY".toList, loc, .scan .empty⟩])
/-- `register_syntactic_factor` — graph.rs:182-207. -/
def registerFactor (config : Config) (steps : List Instruction) (next : Option Nat) :
    Factor → Res (Nat × List Instruction)
  | .mk n p =>
    if n = 1 then registerPrimary config steps next p
    else do
      let (sub, steps) ← registerPrimary config steps none p
      .ok (steps.length, steps ++ [⟨next, (Factor.mk n p).display, p.location, .repetition n n sub⟩])
/-- `register_syntactic_term` — graph.rs:155-180. -/
def registerTerm (config : Config) (steps : List Instruction) (next : Option Nat) :
    Term → Res (Nat × List Instruction)
  | .except f e => do
    let (factor, steps) ← registerFactor config steps none f
    let (exception, steps) ← registerFactor config steps none e
    .ok (steps.length, steps ++
      [⟨next, (Term.except f e).display, f.primary.location, .scan (.exception factor exception)⟩])
  | .plain f => registerFactor config steps next f
/-- The loop of `register_single_definition` — graph.rs:147-151: terms from the last to the first,
each continuing with the one after it. -/
def registerTerms (config : Config) (steps : List Instruction) (next : Option Nat) :
    SingleDefinition → Res (Option Nat × List Instruction)
  | .nil => .ok (next, steps)
  | .cons t rest => do
    let (next, steps) ← registerTerms config steps next rest
    let (index, steps) ← registerTerm config steps next t
    .ok (some index, steps)
/-- The loop of `register_definition_list` — graph.rs:122-126, with `register_single_definition`
(graph.rs:140-153) inlined: indices and symbols of all definitions. -/
def registerDefinitions (config : Config) (steps : List Instruction) (next : Option Nat) :
    DefinitionList → Res (List (Nat × Str) × List Instruction)
  | .nil => .ok ([], steps)
  | .cons d rest => do
    if d = .nil then .panic .emptyDefinition else
    let (index, steps) ← registerTerms config steps next d
    match index with
    | none => .panic .missing
    | some index =>
      match steps[index]? with
      | none => .panic .missing
      | some instr =>
        let (more, steps) ← registerDefinitions config steps next rest
        .ok ((index, instr.symbol) :: more, steps)
/-- `register_definition_list` — graph.rs:110-138. -/
def registerDefinitionList (config : Config) (steps : List Instruction) (next : Option Nat) :
    DefinitionList → Res (Nat × List Instruction)
  | .cons d .nil => do
    if d = .nil then .panic .emptyDefinition else
    let (index, steps) ← registerTerms config steps next d
    match index with
    | none => .panic .missing
    | some index => .ok (index, steps)
  | .nil =>
    match steps.getLast? with
    | none => .panic .emptyDefinitionList
    | some last => .ok (steps.length, steps ++ [⟨next, parallelNotation [], last.definition, .or []⟩])
  | .cons d (.cons d' rest) => do
    if d = .nil then .panic .emptyDefinition else
    let (index, steps) ← registerTerms config steps next d
    match index with
    | none => .panic .missing
    | some index =>
      match steps[index]? with
      | none => .panic .missing
      | some instr =>
        let (more, steps) ← registerDefinitions config steps next (.cons d' rest)
        let all := (index, instr.symbol) :: more
        match steps.getLast? with
        | none => .panic .emptyDefinitionList
        | some last =>
          .ok (steps.length, steps ++
            [⟨next, parallelNotation (all.map (·.2)), last.definition, .or (all.map (·.1))⟩])
end

/-- `struct LexGraph` — graph.rs:57-61. -/
structure Graph where
  instructions : List Instruction
  labels : Map Nat
  canonicalNames : Map Str

namespace Graph

/-- `LexGraph::canonical_name` — graph.rs:93-96. -/
def canonicalName (g : Graph) (metaIdentifier : Str) : Option Str :=
  g.canonicalNames.get? (keyedMetaIdentifier metaIdentifier)

/-- `LexGraph::index_of_label` — graph.rs:98-103. -/
def indexOfLabel (g : Graph) (metaIdentifier : Str) : Option Nat :=
  g.labels.get? (keyedMetaIdentifier metaIdentifier)

/-- `LexGraph::instruction` — graph.rs:105-107. -/
def instruction (g : Graph) (i : Nat) : Option Instruction := g.instructions[i]?

/-- The `for` loop of `LexGraph::compile` — graph.rs:68-85. -/
def compileLoop (s : Syntax) (config : Config) : List SyntaxRule → Graph → Res Graph
  | [], g => .ok g
  | r :: rs, g => do
    let id := keyedMetaIdentifier r.metaIdentifier
    match s.canonicalName r.metaIdentifier with
    | none => .panic .missing
    | some canonicalName =>
      let (index, steps) ← registerDefinitionList config g.instructions none r.definitionList
      compileLoop s config rs
        { instructions := steps ++ [⟨none, canonicalName, r.location, .alias canonicalName⟩]
          labels := (g.labels.insert id index).insert ('$' :: id) steps.length
          canonicalNames := g.canonicalNames.insert id canonicalName }

/-- `LexGraph::compile` — graph.rs:64-91. -/
def compile (s : Syntax) (config : Config) : Res Graph :=
  compileLoop s config s.syntaxRules ⟨[], [], []⟩

end Graph

end Ebnf
