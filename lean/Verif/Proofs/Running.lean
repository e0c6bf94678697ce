import Verif.Spec.Running
import Verif.Proofs.Parsing
import Verif.Proofs.Meaning
import Verif.Proofs.Eval
import Verif.Props.Grammar

set_option autoImplicit false

/-! # Running parsers -/

namespace Ebnf

open Spec

variable {dbg : Bool}

/-! ## Cursors are determined by the answers -/

theorem cursorStep_det {c : Cursor} {op : ReaderOp} {a : ReaderAns} {c' c'' : Cursor} (h : CursorStep c op a c')
    (h' : CursorStep c op a c'') : c' = c'' := by
  have hsplit : ∀ {m p p' : Nat} {newer older newer' older' : List (Nat × Nat)},
      newer ++ (m, p) :: older = newer' ++ (m, p') :: older' → (∀ x ∈ newer, x.1 ≠ m) → (∀ x ∈ newer', x.1 ≠ m) →
      p = p' ∧ older = older' := by
    intro m p p' newer
    induction newer with
    | nil =>
      intro older newer' older' he _ hn'
      cases newer' with
      | nil => simp at he; exact he
      | cons x xs => simp at he; exact absurd (by rw [← he.1]) (hn' x (by simp))
    | cons y ys ih =>
      intro older newer' older' he hn hn'
      cases newer' with
      | nil => simp at he; exact absurd (by rw [he.1]) (hn y (by simp))
      | cons x xs =>
        simp at he
        exact ih he.2 (fun x hx => hn x (by simp [hx])) (fun x hx => hn' x (by simp [hx]))
  cases h with
  | reset m newer p older h1 h2 =>
    generalize ha : ReaderAns.num (c.pos - p) = a at h'
    cases h' with
    | reset _ newer' p' older' h1' h2' =>
      obtain ⟨rfl, rfl⟩ := hsplit (h1.symm.trans h1') h2 h2'
      rfl
    | resetInvalid => simp at ha
  | unmark m newer p older h1 h2 =>
    cases h' with
    | unmark _ newer' p' older' h1' h2' =>
      obtain ⟨rfl, rfl⟩ := hsplit (h1.symm.trans h1') h2 h2'
      rfl
  | _ => cases h'; rfl

theorem cursorSteps_det {c : Cursor} {ops : List ReaderOp} {as : List ReaderAns} {c' c'' : Cursor}
    (h : CursorSteps c ops as c') (h' : CursorSteps c ops as c'') : c' = c'' := by
  induction h generalizing c'' with
  | nil => cases h'; rfl
  | cons h1 _ ih =>
    cases h' with
    | cons h2 h3 =>
      rw [← cursorStep_det h1 h2] at h3
      exact ih h3

theorem cursorSteps_no_crash {c : Cursor} {ops : List ReaderOp} {as : List ReaderAns} {c' : Cursor}
    (h : CursorSteps c ops as c') : .crash ∉ as := by
  induction h with
  | nil => simp
  | cons h1 _ ih =>
    rw [List.mem_cons]
    rintro (h2 | h2)
    · subst h2; cases h1
    · exact ih h2

/-- Where an input stands. -/
theorem input_stands {r : Reader} {here : Location} {text : Str} (h : InputAt dbg r here text) :
    ∃ c, Stands dbg r c ∧ here = c.location ∧ text = c.rest := by
  obtain ⟨location, source, whole, ops, c, h1, h2, h3, h4, h5⟩ := h
  obtain ⟨as, r', c', a1, a2, a3, a4⟩ := performAll_rep (new_rep (location := location) h1 false) rfl ops
  rcases performAll_mirrors ops (Reader.withLocation location source dbg) with h6 | ⟨h6, h7⟩
  · exact absurd h6 (cursorSteps_no_crash h3)
  · have e : rel (Reader.withLocation location source dbg) = Reader.withLocation location source false := rfl
    rw [e, a1] at h6
    simp only [Prod.mk.injEq] at h6
    obtain ⟨e1, e2⟩ := h6
    rw [e1] at a2
    have := cursorSteps_det h3 a2
    subst this
    rw [← h2] at e2 h7
    rw [e2] at a3
    exact ⟨c, ⟨rep_of_rel a3.toRep, h7⟩, h4, h5⟩

/-- A fresh reader over a source. -/
theorem input_new {location : Location} {s : Source} {text : Str} (h : Delivers s text) :
    InputAt dbg (Reader.withLocation location s dbg) location text :=
  ⟨location, s, text, [], _, h, rfl, .nil _, (start_location _ _).symm, (start_rest location _).symm⟩

theorem input_readerOn (text : String) : InputAt false (readerOn text) (Location.new []) text.toList :=
  input_new ⟨[], rfl, by simp [Source.buffered]⟩

/-! ## Results -/

theorem parses_ne_diverge {q : Quirks} {G : Language} {start : SyntaxRule} {here : Location} {text : Str} {x : Res (List Event)}
    (h : Parses q G start here text x) : x ≠ .diverge := by
  cases h <;> simp

/-- What a parser returns is given by the meaning of the grammar. -/
theorem returns_iff {G : Language} {start : SyntaxRule} {m : Machine} (hp : ParserFor dbg G start m) {r : Reader}
    {here : Location} {text : Str} (hi : InputAt dbg r here text) (x : Res (List Event)) :
    Returns m r x ↔ Parses asBuilt G start here text x := by
  obtain ⟨c, hs, rfl, rfl⟩ := input_stands hi
  constructor
  · rintro ⟨hx, f, hf⟩
    exact (parse_iff hp hs.1 hs.2 x hx).mp ⟨f, hf f (Nat.le_refl _)⟩
  · intro h
    refine ⟨parses_ne_diverge h, ?_⟩
    obtain ⟨config, L, hb, hz, _, hc⟩ := parser_linked hp
    obtain ⟨o, h1, rfl⟩ := parses_verdict h
    obtain ⟨f0, h2⟩ := reaches_task (task := .primary _) (complete L h1) hc
    refine ⟨f0, fun fuel hf => ?_⟩
    rw [parse_pure hb fuel hs, pparse, h2 fuel hf]
    cases o with
    | ok evs n => simp only [verdict, realizes_agree hz h1, Bool.false_eq_true, if_false]
    | _ => rfl

/-- A run that ends is the result. -/
theorem returns_of_run {G : Language} {start : SyntaxRule} {m : Machine} (hp : ParserFor dbg G start m) {r : Reader}
    {here : Location} {text : Str} (hi : InputAt dbg r here text) {x : Res (List Event)} {fuel : Nat}
    (h : (m.parse fuel r).1 = x) (hx : x ≠ .diverge) : Returns m r x := by
  rw [returns_iff hp hi]
  obtain ⟨c, hs, rfl, rfl⟩ := input_stands hi
  exact (parse_iff hp hs.1 hs.2 x hx).mp ⟨fuel, h⟩

theorem loops_iff {G : Language} {start : SyntaxRule} {m : Machine} (hp : ParserFor dbg G start m) {r : Reader}
    {here : Location} {text : Str} (hi : InputAt dbg r here text) :
    Loops m r ↔ ∀ x, ¬ Parses asBuilt G start here text x := by
  constructor
  · intro h x hx
    obtain ⟨hd, f, hf⟩ := (returns_iff hp hi x).mpr hx
    exact hd ((hf f (Nat.le_refl _)).symm.trans (h f))
  · intro h fuel
    apply Classical.byContradiction
    intro hc
    exact h _ ((returns_iff hp hi _).mp (returns_of_run hp hi rfl hc))

/-- After success the reader is at the end. -/
theorem parse_at_end {G : Language} {start : SyntaxRule} {m : Machine} (hp : ParserFor dbg G start m) {r : Reader}
    {here : Location} {text : Str} (hi : InputAt dbg r here text) {fuel : Nat} {out : List Event}
    (h : (m.parse fuel r).1 = .ok out) :
    (perform .isEof (m.parse fuel r).2).1 = .bool true ∧
      (perform .location (m.parse fuel r).2).1 = .location (lineColumn here text) := by
  obtain ⟨c, hs, rfl, rfl⟩ := input_stands hi
  obtain ⟨config, L, hb, hz, _, hc⟩ := parser_linked hp
  have ha := sims_run hb fuel (some m.entry) r c hs
  unfold Machine.parse at h ⊢
  simp only [RM.bind_run] at h ⊢
  generalize runFrom m.graph fuel (some m.entry) r = x at ha h
  generalize prun (semOf dbg) m.graph fuel (some m.entry) c.location c.rest = o at ha
  obtain ⟨res, r1⟩ := x
  cases o with
  | none => have : res = .diverge := ha; subst this; simp at h
  | some o =>
    cases o with
    | ok evs n =>
      obtain ⟨a1, a2, own, a3⟩ := ha
      simp only at a1; subst a1
      obtain ⟨r2, b1, b2'⟩ := isEof_at a3
      simp only [RM.bind_run, b1, moved_rest] at h ⊢
      have he : c.rest.drop n = [] ↔ n = c.rest.length := by
        rw [List.drop_eq_nil_iff]; omega
      by_cases hn : n = c.rest.length
      · rw [decide_eq_true (he.mpr hn), if_pos rfl]
        have hend : ((do
            let r ← RM.get
            if (r.buffer.dbg && !labelsAgree evs) = true then RM.lift (Res.panic Panic.debugAssert)
              else pure (removeEmpty evs)) : RM Reader (List Event)) r2 =
            (if (r2.buffer.dbg && !labelsAgree evs) = true then Res.panic Panic.debugAssert else .ok (removeEmpty evs), r2) := by
          simp only [RM.bind_run, RM.get_run]
          cases r2.buffer.dbg && !labelsAgree evs <;> rfl
        rw [hend]
        obtain ⟨r3, b4, b5⟩ := isEof_at b2'
        simp only [perform, b4, answer, moved_rest]
        refine ⟨by rw [decide_eq_true (he.mpr hn)], ?_⟩
        simp only [Reader.location]
        have := b2'.1.loc
        rw [moved_location a2, hn, List.take_length] at this
        simp [this]
      · rw [decide_eq_false (fun hc => hn (he.mp hc))] at h
        simp only [Bool.false_eq_true, if_false] at h
        obtain ⟨r3, b4, b5⟩ := errExpected_at (g := m.graph) (current := none) b2'
        simp only [RM.bind_run, b4, RM.lift_run] at h
        simp at h
    | fail e evs k => obtain ⟨a1, a2⟩ := ha; simp only at a1; subst a1; simp [RM.lift_run] at h
    | abort e => have : res = .err e := ha.1; subst this; simp at h
    | panic q => have : res = .panic q := ha; subst this; simp at h

/-! ## Concrete parsers -/

theorem plain_realizes (rules : List SyntaxRule) : Realizes dbg Config.default (plainLanguage rules) :=
  fun _ s => ⟨default_behaves s, rfl⟩

/-- Making a parser. -/
theorem machine_new {config : Config} {G : Language} {s : Syntax} {start : SyntaxRule} (h1 : Syntax.new G.rules = .ok s)
    (h2 : Realizes dbg config G) (h3 : ∀ r ∈ G.rules, RuleShape r) (h4 : start ∈ G.rules) :
    ∃ g m, Graph.compile s config = .ok g ∧ Machine.new g start.metaIdentifier = .ok (some m) ∧ ParserFor dbg G start m := by
  obtain ⟨g, a1, a2⟩ := compile_ok (fun l s => (h2 l s).2) h1 h3
  obtain ⟨a, b1, b2⟩ := a2.marked start h4
  have b3 := a2.name start h4
  have : Machine.new g start.metaIdentifier = .ok (some ⟨g, start.metaIdentifier, a⟩) := by
    rw [Machine.new, Graph.indexOfLabel, keyed_dollar, b1]
    simp only [Graph.canonicalName, b3]
  exact ⟨g, _, a1, this, ⟨_, config, g, _, h1, h2, a1, .refl _, this⟩, h3, h4⟩

/-- All rules of a grammar have parsers. -/
theorem other_parser {G : Language} {start start' : SyntaxRule} {m : Machine} (hp : ParserFor dbg G start m)
    (h : start' ∈ G.rules) : ∃ m', ParserFor dbg G start' m' := by
  obtain ⟨⟨s, config, g, query, h1, h2, _⟩, h3, _⟩ := hp
  obtain ⟨_, m', _, _, h4⟩ := machine_new h1 h2 h3 h
  exact ⟨m', h4⟩

/-- Names of the rules of a syntax mean one thing. -/
theorem oneMeaning {G : Language} {s : Syntax} (h1 : Syntax.new G.rules = .ok s) (h2 : ∀ r ∈ G.rules, RuleShape r) :
    OneMeaning G := by
  have hu : ∀ r ∈ G.rules, ∀ r' ∈ G.rules, keyedMetaIdentifier r.metaIdentifier = keyedMetaIdentifier r'.metaIdentifier → r = r' := by
    intro r hr r' hr' hk
    rcases getSyntaxRule_cases h1 r'.metaIdentifier with ⟨r0, _, _, _, _, a5⟩ | ⟨a1, _⟩
    · rw [a5 r hr ((keyed_eq_iff _ _).mp hk), a5 r' hr' (.refl _)]
    · exact absurd ⟨r', hr', .refl _⟩ a1
  have hc : ∀ r ∈ G.rules, ∀ (r' : SyntaxRule), keyedMetaIdentifier r.metaIdentifier ≠ keyedMetaIdentifier ('$' :: r'.metaIdentifier) := by
    intro r hr r' hk
    rw [keyed_dollar] at hk
    exact keyed_no_dollar (h2 r hr).1 _ hk
  have hkk : ∀ {a b n : Str}, SameName a n → SameName b n → keyedMetaIdentifier a = keyedMetaIdentifier b := by
    intro a b n ha hb
    rw [(keyed_eq_iff _ _).mpr ha, (keyed_eq_iff _ _).mpr hb]
  constructor
  · intro r hr r' hr' name hs hs'
    exact hu r hr r' hr' (hkk hs hs')
  · intro name t t' ht ht'
    cases ht with
    | rule a1 a2 =>
      cases ht' with
      | rule b1 b2 => rw [hu _ a1 _ b1 (hkk a2 b2)]
      | marked b1 b2 => exact absurd (hkk a2 b2) (hc _ a1 _)
    | marked a1 a2 =>
      cases ht' with
      | rule b1 b2 => exact absurd (hkk b2 a2) (hc _ b1 _)
      | marked b1 b2 =>
        have := hkk a2 b2
        rw [keyed_dollar, keyed_dollar] at this
        injection this with _ this
        rw [hu _ a1 _ b1 this]

theorem parser_oneMeaning {G : Language} {start : SyntaxRule} {m : Machine} (hp : ParserFor dbg G start m) : OneMeaning G := by
  obtain ⟨s, _, _, _, h1, _⟩ := hp.made
  exact oneMeaning h1 hp.shape

theorem parser_bounded {G : Language} {start : SyntaxRule} {m : Machine} (hp : ParserFor dbg G start m) : Bounded G := by
  obtain ⟨s, _, _, _, _, h1, _⟩ := hp.made
  exact realizes_bounded h1

/-- The verdict on the outcome of the start rule. -/
theorem parses_of_ev {q : Quirks} {G : Language} (hb : Bounded G) {start : SyntaxRule} {here : Location} {text : Str}
    {o : Outcome} (h : Ev q G (.primary (.metaIdentifier start.location start.metaIdentifier)) here text o) :
    Parses q G start here text (verdict here text o) := by
  cases o with
  | ok evs n =>
    have hn := ev_bounded_ok hb h
    rw [verdict]
    by_cases he : n = text.length
    · rw [if_pos he]; subst he; exact .accepted h ((trimmed_iff _ _).mpr rfl)
    · rw [if_neg he]; exact .leftover h (by omega)
  | fail e evs n => exact .rejected h
  | abort e => exact .aborted h
  | panic p => exact .crashed h

/-- A parse ends in one way, for all quirks. -/
theorem parses_unique' {q : Quirks} {G : Language} (U : OneMeaning G) {start : SyntaxRule} {here : Location} {text : Str}
    {x x' : Res (List Event)} (h : Parses q G start here text x) (h' : Parses q G start here text x') : x = x' := by
  obtain ⟨o, h1, rfl⟩ := parses_verdict h
  obtain ⟨o', h2, rfl⟩ := parses_verdict h'
  rw [ev_unique U h1 h2]

/-- Grammar text to parser. -/
def sampleMachine (config : Config) (grammar : String) : Option (List SyntaxRule × SyntaxRule × Machine) :=
  match parseStr [] grammar.toList with
  | .ok (r :: rs) =>
    match Syntax.new (r :: rs) with
    | .ok s =>
      match Graph.compile s config with
      | .ok g =>
        match Machine.new g r.metaIdentifier with
        | .ok (some m) => some (r :: rs, r, m)
        | _ => none
      | _ => none
    | _ => none
  | _ => none

/-- Grammar text and input text to the result for the first rule. -/
def sampleRun (config : Config) (grammar input : String) (fuel : Nat := 100) : Res (List Event) :=
  match sampleMachine config grammar with
  | some (_, _, m) => (m.parse fuel (readerOn input)).1
  | none => .diverge

/-- Grammar text and input text to the result that the meaning of the first rule gives. -/
def sampleMeaning (q : Quirks) (special : Location → Str → Recognizer) (specialName : Location → Str → Str)
    (grammar input : String) : Option (Res (List Event)) :=
  match parseStr [] grammar.toList with
  | .ok (r :: rs) =>
    (eval q ⟨r :: rs, special, specialName⟩ 100 (.primary (.metaIdentifier r.location r.metaIdentifier)) (Location.new [])
      input.toList).map (verdict (Location.new []) input.toList)
  | _ => none

theorem sampleMachine_parser (config : Config) (special : Location → Str → Recognizer) (specialName : Location → Str → Str)
    (hz : ∀ rules, Realizes false config ⟨rules, special, specialName⟩) (grammar : String) (rules : List SyntaxRule)
    (start : SyntaxRule) (m : Machine) (hm : sampleMachine config grammar = some (rules, start, m)) :
    parseStr [] grammar.toList = .ok rules ∧ ParserFor false ⟨rules, special, specialName⟩ start m ∧ rules.head? = some start := by
  unfold sampleMachine at hm
  cases h1 : parseStr [] grammar.toList with
  | ok rs0 =>
    rw [h1] at hm
    cases rs0 with
    | nil => simp at hm
    | cons r rs =>
      simp only at hm
      cases h2 : Syntax.new (r :: rs) with
      | ok s =>
        rw [h2] at hm
        simp only at hm
        have hsh : ∀ x ∈ r :: rs, RuleShape x := fun x hx => (Props.c12_shape [] grammar.toList _ h1 x hx).1
        obtain ⟨g, m', a1, a2, a3⟩ := machine_new (G := ⟨r :: rs, special, specialName⟩) h2 (hz _) hsh
          (List.mem_cons_self (a := r) (l := rs))
        rw [a1] at hm
        simp only [a2, Option.some.injEq, Prod.mk.injEq] at hm
        obtain ⟨rfl, rfl, rfl⟩ := hm
        exact ⟨rfl, a3, rfl⟩
      | err _ => rw [h2] at hm; simp at hm
      | panic _ => rw [h2] at hm; simp at hm
      | diverge => rw [h2] at hm; simp at hm
  | err _ => rw [h1] at hm; simp at hm
  | panic _ => rw [h1] at hm; simp at hm
  | diverge => rw [h1] at hm; simp at hm

/-- The grammar text, its rules, and the parser for the first rule. -/
theorem sample (config : Config) (special : Location → Str → Recognizer) (specialName : Location → Str → Str)
    (hz : ∀ rules, Realizes false config ⟨rules, special, specialName⟩) (grammar : String)
    (h : (sampleMachine config grammar).isSome = true) :
    ∃ rules start m, parseStr [] grammar.toList = .ok rules ∧ ParserFor false ⟨rules, special, specialName⟩ start m ∧
      rules.head? = some start ∧
      (∀ input fuel x, sampleRun config grammar input fuel = x → x ≠ .diverge → Returns m (readerOn input) x) ∧
      ∀ q input x, sampleMeaning q special specialName grammar input = some x →
        Parses q ⟨rules, special, specialName⟩ start (Location.new []) input.toList x := by
  have key := sampleMachine_parser config special specialName hz grammar
  cases hm : sampleMachine config grammar with
  | none => rw [hm] at h; simp at h
  | some x =>
    obtain ⟨rules, start, m⟩ := x
    obtain ⟨h1, h2, h3⟩ := key _ _ _ hm
    refine ⟨rules, start, m, h1, h2, h3, fun input fuel x he hd => returns_of_run h2 (input_readerOn input) (fuel := fuel) ?_ hd,
      fun q input x he => ?_⟩
    · simpa only [sampleRun, hm] using he
    · cases rules with
      | nil => simp at h3
      | cons r rs =>
        simp at h3; subst h3
        simp only [sampleMeaning, h1, Option.map_eq_some_iff] at he
        obtain ⟨o, h4, rfl⟩ := he
        exact parses_of_ev (parser_bounded h2) (eval_sound _ h4)

/-- The same with the default scanner. -/
theorem samplePlain (grammar : String) (h : (sampleMachine .default grammar).isSome = true) :
    ∃ rules start m, parseStr [] grammar.toList = .ok rules ∧ ParserFor false (plainLanguage rules) start m ∧
      rules.head? = some start ∧
      (∀ input fuel x, sampleRun .default grammar input fuel = x → x ≠ .diverge → Returns m (readerOn input) x) ∧
      ∀ q input x, sampleMeaning q (fun _ _ => defaultRecognizer) (fun _ s => '?' :: s ++ ['?']) grammar input = some x →
        Parses q (plainLanguage rules) start (Location.new []) input.toList x :=
  sample .default _ _ (fun _ => plain_realizes _) grammar h

/-- `sample` with the rules given. -/
theorem sampleOf (config : Config) (special : Location → Str → Recognizer) (specialName : Location → Str → Str)
    (hz : ∀ rules, Realizes false config ⟨rules, special, specialName⟩) (grammar : String) (start : SyntaxRule)
    (rules : List SyntaxRule) (hr : parseStr [] grammar.toList = .ok (start :: rules))
    (h : (sampleMachine config grammar).isSome = true) :
    ∃ m, ParserFor false ⟨start :: rules, special, specialName⟩ start m ∧
      (∀ input fuel x, sampleRun config grammar input fuel = x → x ≠ .diverge → Returns m (readerOn input) x) ∧
      ∀ q input x, sampleMeaning q special specialName grammar input = some x →
        Parses q ⟨start :: rules, special, specialName⟩ start (Location.new []) input.toList x := by
  obtain ⟨rules', start', m, h1, h2, h3, h4⟩ := sample config special specialName hz grammar h
  rw [hr] at h1
  simp only [Res.ok.injEq] at h1
  subst h1
  simp only [List.head?_cons, Option.some.injEq] at h3
  subst h3
  exact ⟨m, h2, h4⟩

/-- `samplePlain` with the rules given. -/
theorem samplePlainOf (grammar : String) (start : SyntaxRule) (rules : List SyntaxRule)
    (hr : parseStr [] grammar.toList = .ok (start :: rules)) (h : (sampleMachine .default grammar).isSome = true) :
    ∃ m, ParserFor false (plainLanguage (start :: rules)) start m ∧
      (∀ input fuel x, sampleRun .default grammar input fuel = x → x ≠ .diverge → Returns m (readerOn input) x) ∧
      ∀ q input x, sampleMeaning q (fun _ _ => defaultRecognizer) (fun _ s => '?' :: s ++ ['?']) grammar input = some x →
        Parses q (plainLanguage (start :: rules)) start (Location.new []) input.toList x :=
  sampleOf .default _ _ (fun _ => plain_realizes _) grammar start rules hr h

/-! ## The start rule -/

/-- The start rule matches iff its definitions do. -/
theorem ev_start_ok {q : Quirks} {G : Language} (U : OneMeaning G) {start : SyntaxRule} (hs : start ∈ G.rules) {here : Location}
    {text : Str} {evs : List Event} {n : Nat} :
    Ev q G (.primary (.metaIdentifier start.location start.metaIdentifier)) here text (.ok evs n) ↔
      ∃ inner, Ev q G (.list start.definitionList) here text (.ok inner n) ∧
        evs = .begin start.location here start.metaIdentifier :: inner ++
          [.end start.location (lineColumn here (text.take n)) start.metaIdentifier] := by
  constructor
  · intro h
    cases h with
    | reference h1 h2 h3 =>
      have := U.rule _ h1 _ hs _ h2 (.refl _)
      subst this
      exact ⟨_, h3, rfl⟩
    | referenceStop _ _ _ ho => exact ho.elim
  · rintro ⟨inner, h, rfl⟩
    exact .reference hs (.refl _) h

/-- What `parse` accepts. -/
theorem returns_ok_iff {G : Language} {start : SyntaxRule} {m : Machine} (hp : ParserFor dbg G start m) {r : Reader}
    {here : Location} {text : Str} (hi : InputAt dbg r here text) (out : List Event) :
    Returns m r (.ok out) ↔ ∃ inner, Ev asBuilt G (.list start.definitionList) here text (.ok inner text.length) ∧
      Trimmed (.begin start.location here start.metaIdentifier :: inner ++
        [.end start.location (lineColumn here text) start.metaIdentifier]) out := by
  rw [returns_iff hp hi]
  constructor
  · intro h
    cases h with
    | accepted h1 h2 =>
      obtain ⟨inner, h3, rfl⟩ := (ev_start_ok (parser_oneMeaning hp) hp.start).mp h1
      rw [List.take_length] at h2
      exact ⟨inner, h3, h2⟩
  · rintro ⟨inner, h1, h2⟩
    refine .accepted ((ev_start_ok (parser_oneMeaning hp) hp.start).mpr ⟨inner, h1, rfl⟩) ?_
    rw [List.take_length]
    exact h2

end Ebnf
