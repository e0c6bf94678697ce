import Verif.Spec.Printing
import Verif.Spec.Shape
import Verif.Model.Display
import Verif.Proofs.Blanks

set_option autoImplicit false

/-! # Lemmas about `Display` of rules -/

namespace Ebnf

open Spec

/-- The characters that follow a printed primary, factor, ... in a printed rule. -/
def followers : List Char := ['-', ',', '|', ']', '}', ')', ';']

/-- The character after a printed part; `star` means that the part ends in a star. -/
def Follow (star : Prop) (o : Option Char) : Prop :=
  ∃ c, o = some c ∧ c ∈ followers ∧ (star → c ≠ ')')

/-- The text `s` lexes as `ts` whatever follows. -/
def Shown (s : Str) (star : Prop) (start : Location) (ts : List Token) : Prop :=
  ∀ rest us, Follow star rest.head? → Lexes (lineColumn start s) rest us → Lexes start (s ++ rest) (ts ++ us)

theorem follow_mono {p q : Prop} {o : Option Char} (h : q → p) : Follow p o → Follow q o :=
  fun ⟨c, h1, h2, h3⟩ => ⟨c, h1, h2, fun hq => h3 (h hq)⟩

theorem shown_nil (star : Prop) (start : Location) : Shown [] star start [] := by
  intro rest us _ h
  rw [lineColumn_nil] at h
  exact h

theorem shown_star {s : Str} {p q : Prop} {start : Location} {ts : List Token} (h : p → q)
    (hs : Shown s p start ts) : Shown s q start ts :=
  fun rest us hf hl => hs rest us (follow_mono h hf) hl

/-- A part, a separating symbol, another part. -/
theorem shown_join {s1 s2 : Str} {p1 p2 : Prop} {start : Location} {ts1 ts2 : List Token} {f : Char} {tk : Token}
    (h1 : Shown s1 p1 start ts1) (hf : f ∈ followers) (hp : p1 → f ≠ ')') (hsp : Spelled tk [f])
    (hpos : positionOf tk = lineColumn start s1) (hend : ∀ o, Ends tk o)
    (h2 : Shown s2 p2 (lineColumn start (s1 ++ [f])) ts2) :
    Shown (s1 ++ f :: s2) p2 start (ts1 ++ tk :: ts2) := by
  intro rest us hfo hl
  have h3 := h2 rest us hfo (by rw [lineColumn_append]; simpa using hl)
  have h4 := h1 (f :: (s2 ++ rest)) (tk :: (ts2 ++ us)) ⟨f, rfl, hf, hp⟩
    (.cons (s := [f]) hsp hpos (hend _) (by rw [lineColumn_append]; exact h3))
  simpa using h4

/-- A part between brackets. -/
theorem shown_bracket {s : Str} {p : Prop} {start : Location} {ts : List Token} {o c : Char} {ot ct : Token}
    (h : Shown s p (lineColumn start [o]) ts) (hc : c ∈ followers) (hp : p → c ≠ ')')
    (hso : Spelled ot [o]) (hpo : positionOf ot = start) (heo : Ends ot (s ++ [c]).head?)
    (hsc : Spelled ct [c]) (hpc : positionOf ct = lineColumn start (o :: s)) (hec : ∀ x, Ends ct x) (q : Prop) :
    Shown (o :: s ++ [c]) q start (ot :: (ts ++ [ct])) := by
  intro rest us hfo hl
  have h1 := h (c :: rest) (ct :: us) ⟨c, rfl, hc, hp⟩
    (.cons (s := [c]) hsc (by rw [lineColumn_append]; exact hpc) (hec _) (by
      rw [lineColumn_append, lineColumn_append]; simpa using hl))
  have h2 := Lexes.cons (s := [o]) hso hpo (by
    cases s <;> exact heo) h1
  simpa using h2

/-- First character of a printed part: no character that would extend `(`. -/
def HeadOk (s : Str) : Prop := ∀ c, s.head? = some c → c ≠ '*' ∧ c ≠ '/' ∧ c ≠ ':'

theorem headOk_append {a b : Str} (ha : HeadOk a) (hb : HeadOk b) : HeadOk (a ++ b) := by
  intro c hc
  cases a with
  | nil => exact hb c hc
  | cons x xs => exact ha c hc

theorem letter_follow {c : Char} (h : c ∈ followers) : ¬ IsLetter c ∧ ¬ IsDigit c := by
  simp [followers] at h
  rcases h with rfl | rfl | rfl | rfl | rfl | rfl | rfl <;> decide

theorem letter_not_gap {c : Char} (h : IsLetter c) : c ∉ gapChars := by
  intro hg
  simp [gapChars] at hg
  rcases hg with rfl | rfl | rfl | rfl | rfl | rfl <;> revert h <;> decide

theorem letter_headOk {c : Char} (h : IsLetter c) : c ≠ '*' ∧ c ≠ '/' ∧ c ≠ ':' := by
  refine ⟨?_, ?_, ?_⟩ <;> rintro rfl <;> revert h <;> decide

theorem digit_headOk {c : Char} (h : IsDigit c) : c ≠ '*' ∧ c ≠ '/' ∧ c ≠ ':' := by
  refine ⟨?_, ?_, ?_⟩ <;> rintro rfl <;> revert h <;> decide

theorem joinSpace_flat (w : Str) (ws : List Str) : joinSpace (w :: ws) = w ++ ws.flatMap (' ' :: ·) := by
  induction ws generalizing w with
  | nil => simp [joinSpace]
  | cons v vs ih =>
    rw [joinSpace, ih v, List.flatMap_cons, List.cons_append]
    simp

/-- A word: a letter followed by letters and digits. -/
def IsWord (w : Str) : Prop := ∃ c s, w = c :: s ∧ IsLetter c ∧ ∀ d ∈ s, IsLetter d ∨ IsDigit d

/-- After the first word of a name. -/
theorem shown_words (ws : List Str) (hw : ∀ w ∈ ws, IsWord w) (start : Location) {ts0 : List Token} {l : Location}
    {n : Str} (hn : Name ts0 l n) :
    ∃ ts, Name (ts0 ++ ts) l (n ++ ws.flatMap (' ' :: ·)) ∧
      ∀ rest us, (∃ c, rest.head? = some c ∧ ¬ IsLetter c ∧ ¬ IsDigit c) →
        Lexes (lineColumn start (ws.flatMap (' ' :: ·))) rest us →
        Lexes start (ws.flatMap (' ' :: ·) ++ rest) (ts ++ us) := by
  induction ws generalizing start ts0 n with
  | nil => exact ⟨[], by simpa using hn, fun rest us _ h => by simpa [lineColumn_nil] using h⟩
  | cons w ws ih =>
    obtain ⟨c, s, rfl, hc, hs⟩ := hw w (by simp)
    have hn1 := Name.gap [.gapSeparatorSequence start [' ']] (lineColumn start [' ']) (c :: s) hn (by simp)
      (by simp [IsGapToken])
    obtain ⟨ts, h1, h2⟩ := ih (fun v hv => hw v (by simp [hv])) (lineColumn start (' ' :: c :: s)) hn1
    refine ⟨[.gapSeparatorSequence start [' '], .metaIdentifier (lineColumn start [' ']) (c :: s)] ++ ts, ?_, ?_⟩
    · simpa using h1
    · intro rest us hf hl
      have h3 := h2 rest us hf (by rw [lineColumn_append]; simpa using hl)
      have h4 : Lexes start ([' '] ++ ((c :: s) ++ (ws.flatMap (' ' :: ·) ++ rest)))
          (.gapSeparatorSequence start [' '] :: .metaIdentifier (lineColumn start [' ']) (c :: s) :: (ts ++ us)) := by
        refine .cons (.gapSeparator _ ' ' [] (by simp [gapChars]) (by simp)) rfl (letter_not_gap hc) ?_
        refine .cons (.metaIdentifier _ c s hc hs) rfl ?_ (by rw [lineColumn_append]; exact h3)
        cases ws with
        | nil =>
          obtain ⟨d, h5, h6⟩ := hf
          simp only [List.flatMap_nil, List.nil_append, h5]
          exact h6
        | cons v vs =>
          show ¬ IsLetter ' ' ∧ ¬ IsDigit ' '
          decide
      simpa using h4

/-- A printed name. -/
theorem shown_name {n : Str} (h : NameShape n) (start : Location) :
    ∃ ts, Name ts start n ∧
      ∀ rest us, (∃ c, rest.head? = some c ∧ ¬ IsLetter c ∧ ¬ IsDigit c) →
        Lexes (lineColumn start n) rest us → Lexes start (n ++ rest) (ts ++ us) := by
  obtain ⟨ws, hne, rfl, hws⟩ := h
  cases ws with
  | nil => simp at hne
  | cons w ws =>
    obtain ⟨c, s, rfl, hc, hs⟩ := hws w (by simp)
    obtain ⟨ts, h1, h2⟩ := shown_words ws (fun v hv => hws v (by simp [hv])) (lineColumn start (c :: s))
      (.word start (c :: s))
    refine ⟨[.metaIdentifier start (c :: s)] ++ ts, by rw [joinSpace_flat]; exact h1, ?_⟩
    intro rest us hf hl
    rw [joinSpace_flat] at hl ⊢
    have h3 := h2 rest us hf (by rw [lineColumn_append]; exact hl)
    rw [List.append_assoc]
    refine .cons (.metaIdentifier _ c s hc hs) rfl ?_ h3
    cases ws with
    | nil =>
      obtain ⟨d, h5, h6⟩ := hf
      simp only [List.flatMap_nil, List.nil_append, h5]
      exact h6
    | cons v vs =>
      show ¬ IsLetter ' ' ∧ ¬ IsDigit ' '
      decide

theorem digits_ok (n : Nat) : (∀ c ∈ Nat.toDigits 10 n, IsDigit c) ∧ Nat.toDigits 10 n ≠ [] ∧
    decimal (Nat.toDigits 10 n) = n := by
  refine ⟨fun c hc => ?_, Nat.toDigits_ne_nil, ?_⟩
  · have := Nat.isDigit_of_mem_toDigits (by omega) (by omega) hc
    simpa [Char.isDigit, IsDigit, Char.le_def] using this
  · have := Nat.ofDigitChars_ten_toDigits (n := n)
    rw [Nat.ofDigitChars_eq_foldl] at this
    unfold decimal
    rw [show (fun (a : Nat) (c : Char) => a * 10 + (c.toNat - '0'.toNat)) =
      (fun sofar c => 10 * sofar + (c.toNat - '0'.toNat)) from by
        funext a c; rw [Nat.mul_comm]]
    exact this

theorem quote_ok {s : Str} (h : ¬ ('\'' ∈ s ∧ '"' ∈ s)) :
    displayQuote s ∈ ['\'', '"'] ∧ ∀ c ∈ s, c ≠ displayQuote s := by
  unfold displayQuote
  by_cases hq : '\'' ∈ s
  · simp [hq]
    rintro c hc rfl
    exact h ⟨hq, hc⟩
  · simp [hq]
    rintro c hc rfl
    exact hq hc

mutual
theorem headOk_primary (p : Primary) (h : PrimaryShape p) : HeadOk p.display := by
  intro c hc
  cases p with
  | metaIdentifier l n =>
    obtain ⟨ws, hne, rfl, hws⟩ := h
    cases ws with
    | nil => simp at hne
    | cons w ws =>
      obtain ⟨c', s, rfl, hc', hs⟩ := hws w (by simp)
      rw [Primary.display, joinSpace_flat] at hc
      simp at hc
      subst hc
      exact letter_headOk hc'
  | terminalString l s =>
    simp [Primary.display] at hc
    subst hc
    unfold displayQuote
    split <;> decide
  | empty l => simp [Primary.display] at hc
  | _ => simp [Primary.display] at hc; subst hc; decide
theorem headOk_factor (f : Factor) (h : FactorShape f) : HeadOk f.display := by
  match f with
  | .mk n p =>
    rw [Factor.display]
    apply headOk_append _ (headOk_primary p h.2)
    split
    · intro c hc
      obtain ⟨h1, h2, _⟩ := digits_ok n
      cases hd : Nat.toDigits 10 n with
      | nil => exact absurd hd h2
      | cons d ds =>
        rw [hd] at hc h1
        simp at hc
        subst hc
        exact digit_headOk (h1 d (by simp))
    · intro c hc; simp at hc
theorem headOk_term (t : Term) (h : TermShape t) : HeadOk t.display := by
  match t with
  | .plain f => exact headOk_factor f h
  | .except f e =>
    rw [Term.display]
    exact headOk_append (headOk_factor f h.1) (by intro c hc; simp at hc; subst hc; decide)
theorem headOk_single (d : SingleDefinition) (h : SingleShape d) : HeadOk d.display := by
  match d with
  | .nil => intro c hc; simp [SingleDefinition.display] at hc
  | .cons t .nil => exact headOk_term t h.1
  | .cons t (.cons t' r) =>
    rw [SingleDefinition.display]
    exact headOk_append (headOk_term t h.1) (by intro c hc; simp at hc; subst hc; decide)
theorem headOk_list (d : DefinitionList) (h : ListShape d) : HeadOk d.display := by
  match d with
  | .nil => intro c hc; simp [DefinitionList.display] at hc
  | .cons t .nil => exact headOk_single t h.2.1
  | .cons t (.cons t' r) =>
    rw [DefinitionList.display]
    exact headOk_append (headOk_single t h.2.1) (by intro c hc; simp at hc; subst hc; decide)
end

mutual
theorem shown_primary (p : Primary) (h : PrimaryShape p) (hp : PrintablePrimary p) (start : Location) :
    ∃ ts p', Shown p.display False start ts ∧ PrimaryG ts p' ∧ mapPrimary noL noL p' = mapPrimary noL noL p := by
  match p with
  | .optional l d =>
    obtain ⟨ts, d', h1, h2, h3⟩ := shown_list d h.1 h.2 hp (lineColumn start ['['])
    refine ⟨.startOptionSymbol start ['['] :: (ts ++ [.endOptionSymbol (lineColumn start ('[' :: d.display)) [']']]),
      .optional start d', ?_, ?_, ?_⟩
    · exact shown_bracket h1 (by decide) (by simp) (.startOption _ _ (by simp)) rfl trivial
        (.endOption _ _ (by simp)) rfl (fun _ => trivial) _
    · have := PrimaryG.optional (g := []) (g' := []) (l := start) (s := ['[']) (l' := lineColumn start ('[' :: d.display))
        (s' := [']']) blanks_nil blanks_nil h2
      simpa using this
    · simp [mapPrimary, h3, noL]
  | .repeated l d =>
    obtain ⟨ts, d', h1, h2, h3⟩ := shown_list d h.1 h.2 hp (lineColumn start ['{'])
    refine ⟨.startRepeatSymbol start ['{'] :: (ts ++ [.endRepeatSymbol (lineColumn start ('{' :: d.display)) ['}']]),
      .repeated start d', ?_, ?_, ?_⟩
    · exact shown_bracket h1 (by decide) (by simp) (.startRepeat _ _ (by simp)) rfl trivial
        (.endRepeat _ _ (by simp)) rfl (fun _ => trivial) _
    · have := PrimaryG.repeated (g := []) (g' := []) (l := start) (s := ['{']) (l' := lineColumn start ('{' :: d.display))
        (s' := ['}']) blanks_nil blanks_nil h2
      simpa using this
    · simp [mapPrimary, h3, noL]
  | .grouped l d =>
    obtain ⟨ts, d', h1, h2, h3⟩ := shown_list d h.1 h.2 hp.2 (lineColumn start ['('])
    refine ⟨.startGroupSymbol start :: (ts ++ [.endGroupSymbol (lineColumn start ('(' :: d.display))]),
      .grouped start d', ?_, ?_, ?_⟩
    · refine shown_bracket h1 (by decide) (fun hs => absurd hs hp.1) (.startGroup _) rfl ?_
        (.endGroup _) rfl (fun _ => trivial) _
      have := headOk_append (headOk_list d h.2) (b := [')']) (by intro c hc; simp at hc; subst hc; decide)
      cases hx : (d.display ++ [')']).head? with
      | none => trivial
      | some c => exact this c hx
    · have := PrimaryG.grouped (g := []) (g' := []) (l := start) (l' := lineColumn start ('(' :: d.display))
        blanks_nil blanks_nil h2
      simpa using this
    · simp [mapPrimary, h3, noL]
  | .metaIdentifier l n =>
    obtain ⟨ts, h1, h2⟩ := shown_name h start
    refine ⟨ts, .metaIdentifier start n, ?_, .metaIdentifier (g := []) blanks_nil h1, rfl⟩
    rintro rest us ⟨c, hc, hf, _⟩ hl
    exact h2 rest us ⟨c, hc, letter_follow hf⟩ hl
  | .terminalString l s =>
    obtain ⟨h1, h2, h3⟩ := h
    obtain ⟨h4, h5⟩ := quote_ok h3
    refine ⟨[.terminalString start s (displayQuote s)], .terminalString start s, ?_,
      .terminalString (g := []) blanks_nil, rfl⟩
    intro rest us _ hl
    exact .cons (.terminalString _ s _ h4 h1 (fun c hc => ⟨h2 c hc, h5 c hc⟩)) rfl trivial hl
  | .specialSequence l s =>
    refine ⟨[.specialSequence start s], .specialSequence start s, ?_,
      .specialSequence (g := []) blanks_nil, rfl⟩
    intro rest us _ hl
    exact .cons (.specialSequence _ s h) rfl trivial hl
  | .empty l =>
    exact ⟨[], .empty l, shown_nil _ _, .empty l blanks_nil, rfl⟩
theorem shown_factor (f : Factor) (h : FactorShape f) (hp : PrintableFactor f) (start : Location) :
    ∃ ts f', Shown f.display (RepeatedEmpty f) start ts ∧ FactorG ts f' ∧
      mapFactor noL noL f' = mapFactor noL noL f := by
  match f with
  | .mk n p =>
    rw [Factor.display]
    by_cases hn : n = 1
    · subst hn
      obtain ⟨ts, p', h1, h2, h3⟩ := shown_primary p h.2 hp start
      refine ⟨ts, .mk 1 p', ?_, .one h2, by simp [mapFactor, h3]⟩
      simp only [ne_eq, not_true_eq_false, if_false, List.nil_append]
      exact shown_star (fun hf => hf.elim) h1
    · rw [if_pos hn]
      obtain ⟨hd1, hd2, hd3⟩ := digits_ok n
      have hlt := h.1
      obtain ⟨ts, p', h1, h2, h3⟩ := shown_primary p h.2 hp (lineColumn start (Nat.toDigits 10 n ++ ['*']))
      refine ⟨.integer start (Nat.toDigits 10 n) :: .repetitionSymbol (lineColumn start (Nat.toDigits 10 n)) :: ts,
        .mk n p', ?_, ?_, by simp [mapFactor, h3]⟩
      · intro rest us hf hl
        have h4 := h1 rest us (follow_mono (fun hf => hf.elim) hf) (by rw [lineColumn_append]; exact hl)
        have hd : ∃ d ds, Nat.toDigits 10 n = d :: ds := by
          cases hx : Nat.toDigits 10 n with
          | nil => exact absurd hx hd2
          | cons d ds => exact ⟨d, ds, rfl⟩
        have h5 : Lexes (lineColumn start (Nat.toDigits 10 n)) (['*'] ++ (p.display ++ rest))
            (.repetitionSymbol (lineColumn start (Nat.toDigits 10 n)) :: (ts ++ us)) := by
          refine .cons (.repetition _) rfl ?_ (by rw [lineColumn_append]; exact h4)
          cases hx : (p.display ++ rest).head? with
          | none => trivial
          | some c =>
            show c ≠ ')'
            rintro rfl
            cases hdp : p.display with
            | nil =>
              rw [hdp] at hx
              obtain ⟨c, hc, _, hstar⟩ := hf
              simp only [List.nil_append] at hx
              rw [hx] at hc
              injection hc with hc
              subst hc
              refine hstar ?_ rfl
              cases p with
              | empty l => exact hn
              | metaIdentifier l m =>
                exact absurd hdp (nameShape_ne_nil h.2)
              | _ => simp [Primary.display] at hdp
            | cons x xs =>
              rw [hdp] at hx
              simp at hx
              subst hx
              cases p with
              | empty l => simp [Primary.display] at hdp
              | metaIdentifier l m =>
                obtain ⟨ws, hne, rfl, hws⟩ := h.2
                cases ws with
                | nil => simp at hne
                | cons w ws =>
                  obtain ⟨c', s, rfl, hc', hs⟩ := hws w (by simp)
                  rw [Primary.display, joinSpace_flat] at hdp
                  simp at hdp
                  rw [hdp.1] at hc'
                  revert hc'; decide
              | terminalString l s =>
                simp [Primary.display] at hdp
                have := hdp.1
                unfold displayQuote at this
                split at this <;> simp at this
              | _ => simp [Primary.display] at hdp
        obtain ⟨d, ds, hd⟩ := hd
        rw [List.append_assoc, List.append_assoc]
        refine .cons ?_ rfl (show ¬ IsDigit '*' by decide) h5
        rw [hd] at hd1 ⊢
        exact .integer _ d ds (hd1 d (by simp)) (fun c hc => hd1 c (by simp [hc]))
      · have := FactorG.times (g := []) (g' := []) (l := start) (l' := lineColumn start (Nat.toDigits 10 n))
          blanks_nil blanks_nil hd1 hd2 (by rw [hd3]; exact hlt) h2
        rw [hd3] at this
        exact this
theorem shown_term (t : Term) (h : TermShape t) (hp : PrintableTerm t) (start : Location) :
    ∃ ts t', Shown t.display (EndsRepeatedEmptyTerm t) start ts ∧ TermG ts t' ∧
      mapTerm noL noL t' = mapTerm noL noL t := by
  match t with
  | .plain f =>
    obtain ⟨ts, f', h1, h2, h3⟩ := shown_factor f h hp start
    exact ⟨ts, .plain f', h1, .plain h2, by simp [mapTerm, h3]⟩
  | .except f e =>
    obtain ⟨ts, f', h1, h2, h3⟩ := shown_factor f h.1 hp.1 start
    obtain ⟨us, e', h4, h5, h6⟩ := shown_factor e h.2 hp.2 (lineColumn start (f.display ++ ['-']))
    refine ⟨ts ++ .exceptSymbol (lineColumn start f.display) :: us, .except f' e', ?_, ?_, by simp [mapTerm, h3, h6]⟩
    · exact shown_join h1 (by decide) (by simp) (.except _) rfl (fun _ => trivial) h4
    · have := TermG.except (g := []) (l := lineColumn start f.display) h2 blanks_nil h5
      simpa using this
theorem shown_single (d : SingleDefinition) (hne : d ≠ .nil) (h : SingleShape d) (hp : PrintableSingle d)
    (start : Location) :
    ∃ ts d', Shown d.display (EndsRepeatedEmptySingle d) start ts ∧ SingleG ts d' ∧
      mapSingle noL noL d' = mapSingle noL noL d := by
  match d with
  | .nil => exact absurd rfl hne
  | .cons t .nil =>
    obtain ⟨ts, t', h1, h2, h3⟩ := shown_term t h.1 hp.1 start
    exact ⟨ts, .cons t' .nil, h1, .one h2, by simp [mapSingle, h3]⟩
  | .cons t (.cons t1 r) =>
    obtain ⟨ts, t', h1, h2, h3⟩ := shown_term t h.1 hp.1 start
    obtain ⟨us, r', h4, h5, h6⟩ := shown_single (.cons t1 r) (by simp) h.2 hp.2 (lineColumn start (t.display ++ [',']))
    refine ⟨ts ++ .concatenateSymbol (lineColumn start t.display) :: us, .cons t' r', ?_, ?_, ?_⟩
    · exact shown_join h1 (by decide) (by simp) (.concatenate _) rfl (fun _ => trivial) h4
    · have := SingleG.more (g := []) (l := lineColumn start t.display) h2 blanks_nil h5
      simpa using this
    · rw [mapSingle, h3, h6]; rfl
theorem shown_list (d : DefinitionList) (hne : d ≠ .nil) (h : ListShape d) (hp : PrintableList d)
    (start : Location) :
    ∃ ts d', Shown d.display (EndsRepeatedEmpty d) start ts ∧ ListG ts d' ∧
      mapList noL noL d' = mapList noL noL d := by
  match d with
  | .nil => exact absurd rfl hne
  | .cons t .nil =>
    obtain ⟨ts, t', h1, h2, h3⟩ := shown_single t h.1 h.2.1 hp.1 start
    exact ⟨ts, .cons t' .nil, h1, .one h2, by simp [mapList, h3]⟩
  | .cons t (.cons t1 r) =>
    obtain ⟨ts, t', h1, h2, h3⟩ := shown_single t h.1 h.2.1 hp.1 start
    obtain ⟨us, r', h4, h5, h6⟩ := shown_list (.cons t1 r) (by simp) h.2.2 hp.2 (lineColumn start (t.display ++ ['|']))
    refine ⟨ts ++ .definitionSeparatorSymbol (lineColumn start t.display) '|' :: us, .cons t' r', ?_, ?_, ?_⟩
    · exact shown_join h1 (by decide) (by simp) (.separator _ _ (by simp)) rfl (fun o => by cases o <;> trivial) h4
    · have := ListG.more (g := []) (l := lineColumn start t.display) (c := '|') h2 blanks_nil h5
      simpa using this
    · rw [mapList, h3, h6]; rfl
end

/-- A printed rule lexes, whatever follows it, into tokens that derive the rule. -/
theorem shown_rule (r : SyntaxRule) (h : RuleShape r) (hp : PrintableList r.definitionList) (start : Location) :
    ∃ ts r', RuleG ts r' ∧ forgetLocations r' = forgetLocations r ∧
      ∀ rest us, Lexes (lineColumn start r.display) rest us → Lexes start (r.display ++ rest) (ts ++ us) := by
  obtain ⟨hn, hne, hl⟩ := h
  obtain ⟨ns, h1, h2⟩ := shown_name hn start
  obtain ⟨ts, d', h3, h4, h5⟩ := shown_list r.definitionList hne hl hp (lineColumn start (r.metaIdentifier ++ ['=']))
  refine ⟨_, ⟨start, r.metaIdentifier, d'⟩, .rule (g := []) (g' := []) (g'' := [])
    (l := lineColumn start r.metaIdentifier)
    (t := .terminatorSymbol (lineColumn start (r.metaIdentifier ++ '=' :: r.definitionList.display)) ';')
    blanks_nil h1 blanks_nil h4 blanks_nil trivial, ?_, ?_⟩
  · simp only [forgetLocations, mapRule]
    congr 1
  · intro rest us hr
    have h6 := h3 (';' :: rest) (.terminatorSymbol (lineColumn start (r.metaIdentifier ++ '=' :: r.definitionList.display)) ';' :: us)
      ⟨';', rfl, by decide, fun _ => by decide⟩ (.cons (s := [';']) (.terminator _ _ (by simp))
        (by rw [lineColumn_append]; simp [positionOf]) trivial
        (by rw [lineColumn_append, lineColumn_append]; simpa [SyntaxRule.display] using hr))
    have h7 := h2 ('=' :: (r.definitionList.display ++ ';' :: rest)) (.definingSymbol (lineColumn start r.metaIdentifier) ::
        (ts ++ .terminatorSymbol (lineColumn start (r.metaIdentifier ++ '=' :: r.definitionList.display)) ';' :: us))
      ⟨'=', rfl, by decide, by decide⟩ (.cons (s := ['=']) (.defining _) rfl trivial (by
        rw [lineColumn_append]; exact h6))
    simpa [SyntaxRule.display] using h7

theorem shown_rules (rs : List SyntaxRule) (h : ∀ r ∈ rs, RuleShape r ∧ PrintableList r.definitionList)
    (start : Location) : ∃ ts rs', Lexes start (rs.flatMap SyntaxRule.display) ts ∧
      (∀ l, RulesG (ts ++ [.eof l]) rs') ∧ rs'.map forgetLocations = rs.map forgetLocations := by
  induction rs generalizing start with
  | nil => exact ⟨[], [], .nil _, fun l => .blank (g := []) blanks_nil trivial .nil, rfl⟩
  | cons r rs ih =>
    obtain ⟨ts, r', h1, h2, h3⟩ := shown_rule r (h r (by simp)).1 (h r (by simp)).2 start
    obtain ⟨us, rs', h4, h5, h6⟩ := ih (fun x hx => h x (by simp [hx])) (lineColumn start r.display)
    refine ⟨ts ++ us, r' :: rs', ?_, fun l => ?_, by simp [h2, h6]⟩
    · rw [List.flatMap_cons]; exact h3 _ _ h4
    · rw [List.append_assoc]; exact .rule h1 (h5 l)

/-- Printing does not depend on locations. -/
theorem parse_display (name : Str) (rs : List SyntaxRule)
    (h : ∀ r ∈ rs, RuleShape r ∧ PrintableList r.definitionList) :
    ∃ rs', parseStr name (rs.flatMap SyntaxRule.display) = .ok rs' ∧
      rs'.map forgetLocations = rs.map forgetLocations := by
  obtain ⟨ts, rs1, h1, h2, h3⟩ := shown_rules rs h (Location.new name)
  obtain ⟨rs', h4, h5⟩ := parseStr_complete h1 (h2 _) rfl
  refine ⟨rs', h4, ?_⟩
  rw [← h3]
  have := congrArg (List.map forgetLocations) h5
  simpa [Function.comp_def, mapRule_mapRule] using this

mutual
theorem display_map_primary (f e : Location → Location) (p : Primary) : (mapPrimary f e p).display = p.display := by
  cases p <;> simp only [mapPrimary, Primary.display] <;> simp [display_map_list f e]
theorem display_map_factor (f e : Location → Location) (p : Factor) : (mapFactor f e p).display = p.display := by
  cases p; simp [mapFactor, Factor.display, display_map_primary f e]
theorem display_map_term (f e : Location → Location) (p : Term) : (mapTerm f e p).display = p.display := by
  cases p <;> simp [mapTerm, Term.display, display_map_factor f e]
theorem display_map_single (f e : Location → Location) (p : SingleDefinition) :
    (mapSingle f e p).display = p.display := by
  match p with
  | .nil => rfl
  | .cons t .nil => simp [mapSingle, SingleDefinition.display, display_map_term f e]
  | .cons t (.cons t' r) =>
    have := display_map_single f e (.cons t' r)
    rw [mapSingle] at this
    simp [mapSingle, SingleDefinition.display, display_map_term f e, this]
theorem display_map_list (f e : Location → Location) (p : DefinitionList) :
    (mapList f e p).display = p.display := by
  match p with
  | .nil => rfl
  | .cons t .nil => simp [mapList, DefinitionList.display, display_map_single f e]
  | .cons t (.cons t' r) =>
    have := display_map_list f e (.cons t' r)
    rw [mapList] at this
    simp [mapList, DefinitionList.display, display_map_single f e, this]
end

theorem display_forget (r : SyntaxRule) : (forgetLocations r).display = r.display := by
  simp [forgetLocations, mapRule, SyntaxRule.display, display_map_list]

theorem display_eq_of_forget {rs rs' : List SyntaxRule} (h : rs'.map forgetLocations = rs.map forgetLocations) :
    rs'.map SyntaxRule.display = rs.map SyntaxRule.display := by
  have := congrArg (List.map SyntaxRule.display) h
  simpa [Function.comp_def, display_forget] using this

end Ebnf
