import Verif.Proofs.Display
import Verif.Proofs.Stream

set_option autoImplicit false

/-! # Lemmas: what becomes of a printed rule that is not printable -/

namespace Ebnf

open Spec

/-- The tokenizer stops at a `*)` in the text. -/
def SpoiltBy (start : Location) (text : Str) : Prop :=
  ∃ a b x, text = a ++ '*' :: ')' :: b ∧ tokLoop start text = (.err ⟨lineColumn start a, .commentNotOpened⟩, x)

theorem spoilt_here (start : Location) (b : Str) : SpoiltBy start ('*' :: ')' :: b) :=
  ⟨[], b, _, rfl, by rw [lineColumn_nil]; exact tokLoop_err (by simp [readNext]; rfl)⟩

theorem spoilt_cons {start : Location} {tk : Token} {s rest : Str} (hsp : Spelled tk s) (hp : positionOf tk = start)
    (he : Ends tk rest.head?) (h : SpoiltBy (lineColumn start s) rest) : SpoiltBy start (s ++ rest) := by
  obtain ⟨a, b, x, rfl, h2⟩ := h
  have hc := readNext_complete hsp _ he
  rw [hp] at hc
  rcases hc with hc | ⟨hr, _⟩
  · refine ⟨s ++ a, b, x, by simp, ?_⟩
    rw [tokLoop_some hc]
    simp only [List.take_left, List.drop_left]
    rw [Location.pushStr_eq_lineColumn, h2, ← lineColumn_append]
    rfl
  · simp at hr

theorem spoilt_append {start : Location} {a b : Str} {ts : List Token} (h : Lexes start a ts)
    (he : ∀ t, ts.getLast? = some t → Ends t b.head?) (h' : SpoiltBy (lineColumn start a) b) : SpoiltBy start (a ++ b) := by
  induction h with
  | nil => simpa [lineColumn_nil] using h'
  | @cons start tk s rest tks hsp hp hend hl ih =>
    rw [List.append_assoc]
    refine spoilt_cons hsp hp ?_ (ih ?_ ?_)
    · cases hl with
      | nil => simpa using he tk (by simp)
      | cons hsp' _ _ _ =>
        rename_i s' _ _ _ _ _
        cases s' with
        | nil => exact absurd rfl (spelled_ne_nil hsp')
        | cons c cs => simpa using hend
    · intro t ht
      cases tks with
      | nil => simp at ht
      | cons x xs => exact he t (by simpa [List.getLast?_cons_cons] using ht)
    · rwa [lineColumn_append]

/-- A part that can be read, a symbol, and then a text that is spoilt. -/
theorem spoilt_after {s rest : Str} {p : Prop} {start : Location} {ts : List Token} {f : Char} {tk : Token}
    (h1 : Shown s p start ts) (hf : f ∈ followers) (hp : p → f ≠ ')') (hsp : Spelled tk [f])
    (hpos : positionOf tk = lineColumn start s) (hend : ∀ o, Ends tk o)
    (h2 : SpoiltBy (lineColumn start (s ++ [f])) rest) : SpoiltBy start (s ++ f :: rest) := by
  have h3 := h1 [f] [tk] ⟨f, rfl, hf, hp⟩ (.cons (s := [f]) (rest := []) hsp hpos (hend _) (.nil _))
  have := spoilt_append h3 (by
    intro t ht
    simp at ht
    subst ht
    exact hend _) h2
  simpa using this

/-- The text is spoilt whatever follows. -/
def Spoils (s : Str) (start : Location) : Prop := ∀ rest, SpoiltBy start (s ++ rest)

theorem spoils_factor_end (f : Factor) (h : RepeatedEmpty f) (start : Location) (rest : Str) :
    SpoiltBy start (f.display ++ ')' :: rest) := by
  match f with
  | .mk n (.empty l) =>
    have hn : n ≠ 1 := h
    obtain ⟨hd1, hd2, _⟩ := digits_ok n
    rw [Factor.display, if_pos hn, Primary.display]
    rw [List.append_nil, List.append_assoc]
    cases hd : Nat.toDigits 10 n with
    | nil => exact absurd hd hd2
    | cons d ds =>
      rw [hd] at hd1
      exact spoilt_cons (.integer start d ds (hd1 d (by simp)) (fun c hc => hd1 c (by simp [hc]))) rfl
        (show ¬ IsDigit '*' by decide) (spoilt_here _ _)

theorem spoils_term_end (t : Term) (hs : TermShape t) (hp : PrintableTerm t) (h : EndsRepeatedEmptyTerm t) (start : Location) (rest : Str) :
    SpoiltBy start (t.display ++ ')' :: rest) := by
  match t with
  | .plain f => exact spoils_factor_end f h start rest
  | .except f e =>
    obtain ⟨ts, f', h1, _⟩ := shown_factor f hs.1 hp.1 start
    rw [Term.display]
    have := spoilt_after (f := '-') h1 (by decide) (by simp) (.except _) rfl (fun _ => trivial)
      (spoils_factor_end e h (lineColumn start (f.display ++ ['-'])) rest)
    simpa using this

theorem spoils_single_end (d : SingleDefinition) (hs : SingleShape d) (hp : PrintableSingle d) (h : EndsRepeatedEmptySingle d)
    (start : Location) (rest : Str) : SpoiltBy start (d.display ++ ')' :: rest) := by
  match d with
  | .nil => exact h.elim
  | .cons t .nil => exact spoils_term_end t hs.1 hp.1 h start rest
  | .cons t (.cons t' r) =>
    obtain ⟨ts, f', h1, _⟩ := shown_term t hs.1 hp.1 start
    rw [SingleDefinition.display]
    have := spoilt_after (f := ',') h1 (by decide) (by simp) (.concatenate _) rfl (fun _ => trivial)
      (spoils_single_end (.cons t' r) hs.2 hp.2 h (lineColumn start (t.display ++ [','])) rest)
    simpa using this

theorem spoils_list_end (d : DefinitionList) (hs : ListShape d) (hp : PrintableList d) (h : EndsRepeatedEmpty d)
    (start : Location) (rest : Str) : SpoiltBy start (d.display ++ ')' :: rest) := by
  match d with
  | .nil => exact h.elim
  | .cons t .nil => exact spoils_single_end t hs.2.1 hp.1 h start rest
  | .cons t (.cons t' r) =>
    obtain ⟨ts, f', h1, _⟩ := shown_single t hs.1 hs.2.1 hp.1 start
    rw [DefinitionList.display]
    have := spoilt_after (f := '|') h1 (by decide) (by simp) (.separator _ _ (by simp)) rfl (fun o => by cases o <;> trivial)
      (spoils_list_end (.cons t' r) hs.2.2 hp.2 h (lineColumn start (t.display ++ ['|'])) rest)
    simpa using this

mutual
theorem spoils_primary (p : Primary) (h : PrimaryShape p) (hp : ¬ PrintablePrimary p) (start : Location) : Spoils p.display start := by
  intro rest
  match p with
  | .optional l d =>
    have h1 := spoils_list d h.1 h.2 hp (lineColumn start ['[']) (']' :: rest)
    rw [Primary.display]
    have := spoilt_cons (start := start) (s := ['[']) (.startOption start _ (by simp)) rfl trivial h1
    simpa using this
  | .repeated l d =>
    have h1 := spoils_list d h.1 h.2 hp (lineColumn start ['{']) ('}' :: rest)
    rw [Primary.display]
    have := spoilt_cons (start := start) (s := ['{']) (.startRepeat start _ (by simp)) rfl trivial h1
    simpa using this
  | .grouped l d =>
    have h1 : SpoiltBy (lineColumn start ['(']) (d.display ++ ')' :: rest) := by
      by_cases hd : PrintableList d
      · have he : EndsRepeatedEmpty d := Classical.byContradiction fun he => hp ⟨he, hd⟩
        exact spoils_list_end d h.2 hd he _ _
      · exact spoils_list d h.1 h.2 hd _ _
    rw [Primary.display]
    have := spoilt_cons (start := start) (s := ['(']) (.startGroup start) rfl (by
      have := headOk_append (headOk_list d h.2) (b := ')' :: rest) (by intro c hc; simp at hc; subst hc; decide)
      cases hx : (d.display ++ ')' :: rest).head? with
      | none => trivial
      | some c => exact this c hx) h1
    simpa using this
  | .metaIdentifier l n => exact absurd trivial hp
  | .terminalString l s => exact absurd trivial hp
  | .specialSequence l s => exact absurd trivial hp
  | .empty l => exact absurd trivial hp
theorem spoils_factor (f : Factor) (h : FactorShape f) (hp : ¬ PrintableFactor f) (start : Location) : Spoils f.display start := by
  intro rest
  match f with
  | .mk n p =>
    rw [Factor.display]
    by_cases hn : n = 1
    · rw [if_neg (by simp [hn])]
      exact spoils_primary p h.2 hp start rest
    · rw [if_pos hn]
      obtain ⟨hd1, hd2, _⟩ := digits_ok n
      cases hd : Nat.toDigits 10 n with
      | nil => exact absurd hd hd2
      | cons d ds =>
        rw [hd] at hd1
        have h1 := spoils_primary p h.2 hp (lineColumn (lineColumn start (d :: ds)) ['*']) rest
        have h2 := spoilt_cons (s := ['*']) (.repetition (lineColumn start (d :: ds))) rfl (by
          cases p with
          | optional l d => exact (show '[' ≠ ')' by decide)
          | repeated l d => exact (show '{' ≠ ')' by decide)
          | grouped l d => exact (show '(' ≠ ')' by decide)
          | _ => exact absurd trivial hp) h1
        have h3 := spoilt_cons (start := start) (rest := ['*'] ++ (p.display ++ rest)) (.integer start d ds (hd1 d (by simp)) (fun c hc => hd1 c (by simp [hc]))) rfl
          (show ¬ IsDigit '*' by decide) h2
        simpa using h3
theorem spoils_term (t : Term) (h : TermShape t) (hp : ¬ PrintableTerm t) (start : Location) : Spoils t.display start := by
  intro rest
  match t with
  | .plain f => exact spoils_factor f h hp start rest
  | .except f e =>
    rw [Term.display]
    by_cases hf : PrintableFactor f
    · obtain ⟨ts, f', h1, _⟩ := shown_factor f h.1 hf start
      have := spoilt_after (f := '-') h1 (by decide) (by simp) (.except _) rfl (fun _ => trivial)
        (spoils_factor e h.2 (fun he => hp ⟨hf, he⟩) (lineColumn start (f.display ++ ['-'])) rest)
      simpa using this
    · have := spoils_factor f h.1 hf start ('-' :: (e.display ++ rest))
      simpa using this
theorem spoils_single (d : SingleDefinition) (h : SingleShape d) (hp : ¬ PrintableSingle d) (start : Location) :
    Spoils d.display start := by
  intro rest
  match d with
  | .nil => exact absurd trivial hp
  | .cons t .nil => exact spoils_term t h.1 (fun ht => hp ⟨ht, trivial⟩) start rest
  | .cons t (.cons t1 r) =>
    rw [SingleDefinition.display]
    by_cases ht : PrintableTerm t
    · obtain ⟨ts, f', h1, _⟩ := shown_term t h.1 ht start
      have := spoilt_after (f := ',') h1 (by decide) (by simp) (.concatenate _) rfl (fun _ => trivial)
        (spoils_single (.cons t1 r) h.2 (fun he => hp ⟨ht, he⟩) (lineColumn start (t.display ++ [','])) rest)
      simpa using this
    · have := spoils_term t h.1 ht start (',' :: ((SingleDefinition.cons t1 r).display ++ rest))
      simpa using this
theorem spoils_list (d : DefinitionList) (hne : d ≠ .nil) (h : ListShape d) (hp : ¬ PrintableList d) (start : Location) :
    Spoils d.display start := by
  intro rest
  match d with
  | .nil => exact absurd rfl hne
  | .cons t .nil => exact spoils_single t h.2.1 (fun ht => hp ⟨ht, trivial⟩) start rest
  | .cons t (.cons t1 r) =>
    rw [DefinitionList.display]
    by_cases ht : PrintableSingle t
    · obtain ⟨ts, f', h1, _⟩ := shown_single t h.1 h.2.1 ht start
      have := spoilt_after (f := '|') h1 (by decide) (by simp) (.separator _ _ (by simp)) rfl (fun o => by cases o <;> trivial)
        (spoils_list (.cons t1 r) (by simp) h.2.2 (fun he => hp ⟨ht, he⟩) (lineColumn start (t.display ++ ['|'])) rest)
      simpa using this
    · have := spoils_single t h.2.1 ht start ('|' :: ((DefinitionList.cons t1 r).display ++ rest))
      simpa using this
end

theorem spoils_rule (r : SyntaxRule) (h : RuleShape r) (hp : ¬ PrintableList r.definitionList) (start : Location) :
    Spoils r.display start := by
  intro rest
  obtain ⟨hn, hne, hl⟩ := h
  obtain ⟨ns, _, h2⟩ := shown_name hn start
  have h3 := h2 ['='] [.definingSymbol (lineColumn start r.metaIdentifier)] ⟨'=', rfl, by decide, by decide⟩
    (.cons (s := ['=']) (rest := []) (.defining _) rfl trivial (.nil _))
  have h4 := spoilt_append h3 (by
    intro t ht
    simp at ht
    subst ht
    trivial) (spoils_list r.definitionList hne hl hp _ (';' :: rest))
  simpa [SyntaxRule.display] using h4

theorem spoilt_rules (rs : List SyntaxRule) (h : ∀ r ∈ rs, RuleShape r) (hp : ¬ ∀ r ∈ rs, PrintableList r.definitionList)
    (start : Location) : SpoiltBy start (rs.flatMap SyntaxRule.display) := by
  induction rs generalizing start with
  | nil => simp at hp
  | cons r rs ih =>
    rw [List.flatMap_cons]
    by_cases hr : PrintableList r.definitionList
    · have h1 := ih (fun x hx => h x (by simp [hx])) (fun hx => hp (by simpa using ⟨hr, hx⟩)) (lineColumn start r.display)
      obtain ⟨ts, r', hg, _, h3⟩ := shown_rule r (h r (by simp)) hr start
      have h4 := h3 [] [] (.nil _)
      rw [List.append_nil, List.append_nil] at h4
      refine spoilt_append h4 ?_ h1
      intro t ht
      cases hg with
      | rule _ _ _ _ _ hterm =>
        rename_i g ns g' l us g'' tk loc n d _ _ _ _ _ _
        rw [show g ++ ns ++ g' ++ Token.definingSymbol l :: (us ++ g'' ++ [tk]) = (g ++ ns ++ g' ++ Token.definingSymbol l :: (us ++ g'')) ++ [tk] by
          simp, List.getLast?_concat] at ht
        injection ht with ht
        subst ht
        cases tk <;> simp [IsTerminator] at hterm <;> trivial
    · exact spoils_rule r (h r (by simp)) hr start _

theorem parseStr_spoilt {name text : Str} (h : SpoiltBy (Location.new name) text) :
    ∃ a b, text = a ++ '*' :: ')' :: b ∧
      parseStr name text = .err ⟨lineColumn (Location.new name) a, .commentNotOpened⟩ := by
  obtain ⟨a, b, x, h1, h2⟩ := h
  refine ⟨a, b, h1, ?_⟩
  rw [parseStr_eq_feedAll]
  have hc : ¬ ((Lexer.new name).tokenizer.maxBufferSize > 0 ∧
      (Lexer.new name).tokenizer.buffer.length + text.length > (Lexer.new name).tokenizer.maxBufferSize) := by
    simp [Lexer.new, Tokenizer.new, Tokenizer.withCapacity]
  have h3 := lexer_pushStr_eq (Lexer.new name) text hc
  rw [show tokLoop (Lexer.new name).tokenizer.location ((Lexer.new name).tokenizer.buffer ++ text) =
    tokLoop (Location.new name) text from rfl, h2] at h3
  simp only [feedAll, pushAll, RM.bind_run, h3]

end Ebnf
