import Verif.Proofs.PureSims

set_option autoImplicit false

/-! # Special-sequence scanners -/

namespace Ebnf

open Spec

variable {dbg : Bool}

/-! ## A scanner has one meaning -/

theorem rep_rest_unique {r : Reader} {c c' : Cursor} (h : Rep r c) (h' : Rep r c') : c.rest = c'.rest := by
  obtain ⟨t, h1, h2, _⟩ := h.src
  obtain ⟨t', h1', h2', _⟩ := h'.src
  rw [h2, h2', delivers_unique h1 h1']

theorem stands_new (here : Location) (rest : Str) :
    Stands dbg (Reader.withLocation here (.buffered rest) dbg) ⟨here, rest, 0, []⟩ :=
  ⟨(new_rep ⟨[], rfl, by simp [Source.buffered]⟩ dbg).toRep, rfl⟩

theorem start_rest (here : Location) (rest : Str) : (⟨here, rest, 0, []⟩ : Cursor).rest = rest := rfl

theorem start_location (here : Location) (rest : Str) : (⟨here, rest, 0, []⟩ : Cursor).location = here := by
  simp [Cursor.location, lineColumn_nil]

theorem marked_rest (here : Location) (rest : Str) (ms : List (Nat × Nat)) : (⟨here, rest, 0, ms⟩ : Cursor).rest = rest := rfl

theorem marked_location (here : Location) (rest : Str) (ms : List (Nat × Nat)) :
    (⟨here, rest, 0, ms⟩ : Cursor).location = here := by simp [Cursor.location, lineColumn_nil]

/-- A fresh reader with a mark. -/
theorem stands_marked (here : Location) (rest : Str) : ∃ r m, Stands dbg r ⟨here, rest, 0, [(m, 0)]⟩ := by
  obtain ⟨m, r, _, h⟩ := mark_at (stands_new (dbg := dbg) here rest)
  exact ⟨r, m, h⟩

theorem behaves_unique {s : SpecialScanner} {f f' : Recognizer} (h : Behaves dbg s f) (h' : Behaves dbg s f') : f = f' := by
  funext d here rest
  obtain ⟨r0, m0, hs⟩ := stands_marked (dbg := dbg) here rest
  have a := h d _ _ hs.1 hs.2 (by simp)
  have a' := h' d _ _ hs.1 hs.2 (by simp)
  rw [marked_rest, marked_location] at a a'
  have key : ∀ {r : Reader} {n n' : Nat} {own own' : List (Nat × Nat)}, n ≤ rest.length → n' ≤ rest.length →
      Rep r { (⟨here, rest, 0, [(m0, 0)]⟩ : Cursor).advance n with marks := own } →
      Rep r { (⟨here, rest, 0, [(m0, 0)]⟩ : Cursor).advance n' with marks := own' } → n = n' := by
    intro r n n' own own' h1 h2 h3 h4
    have := congrArg List.length (rep_rest_unique h3 h4)
    simp only [Cursor.rest, Cursor.advance, List.length_drop] at this
    omega
  revert a a'
  cases f d here rest <;> cases f' d here rest <;> simp only <;> intro a a'
  · obtain ⟨r1, o1, b1, b2, b3, b4⟩ := a
    obtain ⟨r2, o2, d1, d2, d3, d4⟩ := a'
    rw [b1] at d1
    simp only [Prod.mk.injEq, Res.ok.injEq, Reaction.match.injEq] at d1
    obtain ⟨e1, e2⟩ := d1
    subst e1 e2
    rw [key b2 d2 b3 d3]
  · obtain ⟨r1, o1, b1, _⟩ := a
    obtain ⟨r2, o2, p2, d1, _⟩ := a'
    rw [b1] at d1; simp at d1
  · obtain ⟨r1, o1, b1, _⟩ := a
    obtain ⟨r2, o2, d1, _⟩ := a'
    rw [b1] at d1; simp at d1
  · obtain ⟨r1, o1, b1, _⟩ := a
    obtain ⟨r2, o2, p2, d1, _⟩ := a'
    rw [b1] at d1; simp at d1
  · obtain ⟨r1, o1, p1, b1, _⟩ := a
    obtain ⟨r2, o2, d1, _⟩ := a'
    rw [b1] at d1; simp at d1
  · trivial
  · obtain ⟨r1, o1, p1, b1, _⟩ := a
    obtain ⟨r2, o2, d1, _⟩ := a'
    rw [b1] at d1; simp at d1
  · obtain ⟨r1, o1, p1, b1, _⟩ := a
    obtain ⟨r2, o2, p2, d1, _⟩ := a'
    rw [b1] at d1; simp at d1
  · obtain ⟨r1, o1, b1, _⟩ := a
    obtain ⟨r2, o2, d1, _⟩ := a'
    rw [b1] at d1; simp at d1
  · obtain ⟨r1, o1, b1, _⟩ := a
    obtain ⟨r2, o2, p2, d1, _⟩ := a'
    rw [b1] at d1; simp at d1
  · obtain ⟨r1, o1, b1, b2, b3, b4⟩ := a
    obtain ⟨r2, o2, d1, d2, d3, d4⟩ := a'
    rw [b1] at d1
    simp only [Prod.mk.injEq, Res.ok.injEq, Reaction.forward.injEq] at d1
    obtain ⟨e1, e2⟩ := d1
    subst e1 e2
    rw [key b2 d2 b3 d3]
  · obtain ⟨r1, o1, b1, _⟩ := a
    obtain ⟨r2, o2, p2, d1, _⟩ := a'
    rw [b1] at d1; simp at d1
  · obtain ⟨r1, o1, p1, b1, _⟩ := a
    obtain ⟨r2, o2, d1, _⟩ := a'
    rw [b1] at d1; simp at d1
  · obtain ⟨r1, o1, p1, b1, _⟩ := a
    obtain ⟨r2, o2, p2, d1, _⟩ := a'
    rw [b1] at d1; simp at d1
  · obtain ⟨r1, o1, p1, b1, _⟩ := a
    obtain ⟨r2, o2, d1, _⟩ := a'
    rw [b1] at d1; simp at d1
  · obtain ⟨r1, o1, p1, b1, _⟩ := a
    obtain ⟨r2, o2, p2, d1, _⟩ := a'
    rw [b1] at d1
    simp only [Prod.mk.injEq, Res.err.injEq] at d1
    rw [d1.1]

/-! ## Meanings for a configuration -/

/-- The configuration gives every special sequence the meaning the language says. -/
def ConfigBehaves (dbg : Bool) (config : Config) (special : Location → Str → Recognizer) : Prop :=
  ∀ l s, Behaves dbg (config l s) (special l s)

open Classical in
/-- The meaning of a scanner, if it has one. -/
noncomputable def semOf (dbg : Bool) (s : SpecialScanner) : Recognizer :=
  if h : ∃ f, Behaves dbg s f then h.choose else fun _ _ _ => .unmatched

theorem semOf_eq {s : SpecialScanner} {f : Recognizer} (h : Behaves dbg s f) : semOf dbg s = f := by
  unfold semOf
  have hx : ∃ f, Behaves dbg s f := ⟨f, h⟩
  rw [dif_pos hx]
  exact behaves_unique hx.choose_spec h

/-! ## The scanners of the library -/

theorem default_behaves (content : Str) : Behaves dbg (defaultScanner content) defaultRecognizer := by
  intro d r c h hd _
  exact ⟨r, [], rfl, by simp, h, hd, fun _ => .nil⟩

/-- Like `Behaves`, also without a mark, and the reader is left where it was when the scanner does not match. -/
def BehavesTidily (dbg : Bool) (s : SpecialScanner) (f : Recognizer) : Prop :=
  ∀ (definition : Location) (r : Reader) (c : Cursor), Rep r c → r.buffer.dbg = dbg →
    match f definition c.location c.rest with
    | .accept events n => ∃ r' own, s.scan definition r = (.ok (.match events), r') ∧ n ≤ c.rest.length ∧
        Rep r' { c.advance n with marks := own ++ c.marks } ∧ r'.buffer.dbg = dbg ∧
        (dbg = true → Balanced events)
    | .unmatched => ∃ r' own, s.scan definition r = (.ok .unmatch, r') ∧
        Rep r' { c with marks := own ++ c.marks } ∧ r'.buffer.dbg = dbg
    | .forward name n => ∃ r' own, s.scan definition r = (.ok (.forward name), r') ∧ n ≤ c.rest.length ∧
        Rep r' { c.advance n with marks := own ++ c.marks } ∧ r'.buffer.dbg = dbg
    | .error e => ∃ r' own, s.scan definition r = (.err e, r') ∧
        Rep r' { c with marks := own ++ c.marks } ∧ r'.buffer.dbg = dbg

theorem tidily {s : SpecialScanner} {f : Recognizer} (h : BehavesTidily dbg s f) : Behaves dbg s f := by
  intro d r c hr hd _
  have := h d r c hr hd
  cases hf : f d c.location c.rest with
  | unmatched =>
    rw [hf] at this
    obtain ⟨r', own, h1, h2, h3⟩ := this
    exact ⟨r', own, c.pos, h1, h2, h3⟩
  | accept evs n => rw [hf] at this; exact this
  | forward name n => rw [hf] at this; exact this
  | error e =>
    rw [hf] at this
    obtain ⟨r', own, h1, h2, h3⟩ := this
    exact ⟨r', own, c.pos, h1, h2, h3⟩

/-- The loop of `CharsScanner`. -/
theorem charsLoop_at (allowed : Char → Bool) (max : Option Nat) :
    ∀ (fuel count : Nat) (r : Reader) (c : Cursor), Stands dbg r c → c.rest.length < fuel →
      ∃ r' own, charsLoop allowed max fuel count r = (.ok (greedyRun allowed (max.map (· - count)) c.rest), r') ∧
        Stands dbg r' ⟨c.start, c.text, c.pos + (greedyRun allowed (max.map (· - count)) c.rest).length, own ++ c.marks⟩ := by
  intro fuel
  induction fuel with
  | zero => intro count r c _ h; omega
  | succ fuel ih =>
    intro count r c h hf
    unfold charsLoop
    by_cases hm : (max.map fun m => decide (count < m)).getD true = true
    · rw [if_pos hm]
      obtain ⟨m, r1, h1, h2⟩ := mark_at h
      obtain ⟨r2, h3, h4⟩ := read_at h2 (by simp)
      have e2 : (⟨c.start, c.text, c.pos, (m, c.pos) :: c.marks⟩ : Cursor).rest = c.rest := rfl
      rw [e2] at h3 h4
      simp only [RM.bind_run, h1, h3]
      cases hr : c.rest with
      | nil =>
        simp only [List.head?_nil, RM.pure_run]
        refine ⟨r2, [(m, c.pos)], ?_, ?_⟩
        · cases max <;> simp [greedyRun]
        · rw [hr] at h4
          have : (greedyRun allowed (max.map (· - count)) []).length = 0 := by cases max <;> simp [greedyRun]
          rw [this]
          exact h4
      | cons x xs =>
        have h4' : Stands dbg r2 ⟨c.start, c.text, c.pos + 1, (m, c.pos) :: c.marks⟩ := by
          rw [hr] at h4
          simpa [Cursor.advance] using h4
        simp only [List.head?_cons]
        cases hx : allowed x with
        | false =>
          obtain ⟨k, r3, own, h6, h7⟩ := reset_back (own := []) h4'
          simp only [Bool.not_false, if_true, RM.bind_run, h6, RM.pure_run]
          have : greedyRun allowed (max.map (· - count)) (x :: xs) = [] := by cases max <;> simp [greedyRun, hx]
          rw [this]
          exact ⟨r3, own, rfl, h7⟩
        | true =>
          obtain ⟨r3, own, h6, h7⟩ := unmark_back (own := []) h4'
          simp only [Bool.not_true, Bool.false_eq_true, if_false, RM.bind_run, h6]
          have hrest : (⟨c.start, c.text, c.pos + 1, own ++ c.marks⟩ : Cursor).rest = xs := rest_cons hr
          obtain ⟨r4, own', h8, h9⟩ := ih (count + 1) r3 _ h7 (by rw [hrest]; simp [hr] at hf; omega)
          rw [hrest] at h8 h9
          have hg : greedyRun allowed (max.map (· - count)) (x :: xs) =
              x :: greedyRun allowed (max.map (· - (count + 1))) xs := by
            cases max with
            | none => simp [greedyRun, hx]
            | some k =>
              simp at hm
              have : k - count = (k - (count + 1)) + 1 := by omega
              simp only [Option.map_some, greedyRun, List.takeWhile_cons, hx, if_true]
              rw [this, List.take_succ_cons]
          rw [h8, hg]
          simp only [RM.pure_run]
          refine ⟨r4, own' ++ own, rfl, ?_⟩
          have : c.pos + (x :: greedyRun allowed (max.map (· - (count + 1))) xs).length =
              c.pos + 1 + (greedyRun allowed (max.map (· - (count + 1))) xs).length := by simp; omega
          rw [this]
          simpa using h9
    · rw [if_neg hm]
      refine ⟨r, [], ?_, ?_⟩
      · cases max with
        | none => simp at hm
        | some k =>
          simp at hm
          have : k - count = 0 := by omega
          simp [greedyRun, this]
      · cases max with
        | none => simp at hm
        | some k =>
          simp at hm
          have : k - count = 0 := by omega
          simp [greedyRun, this]; exact h

theorem chars_tidily (allowed : Char → Bool) (min max : Option Nat) :
    BehavesTidily dbg (charsScanner allowed min max) (charsRecognizer allowed min max) := by
  intro d r c h hd
  obtain ⟨m, r1, h1, h2⟩ := mark_at ⟨h, hd⟩
  have hsz := size_at h2.1
  obtain ⟨r2, own, h3, h4⟩ := charsLoop_at allowed max (r1.size + 1) 0 r1 _ h2 (by omega)
  have e1 : (⟨c.start, c.text, c.pos, (m, c.pos) :: c.marks⟩ : Cursor).location = c.location := rfl
  have e2 : (⟨c.start, c.text, c.pos, (m, c.pos) :: c.marks⟩ : Cursor).rest = c.rest := rfl
  have e3 : max.map (· - 0) = max := by cases max <;> simp
  rw [e2, e3] at h3 h4
  have hle : (greedyRun allowed max c.rest).length ≤ c.rest.length := by
    cases max with
    | none => exact (List.takeWhile_prefix _).length_le
    | some k => exact Nat.le_trans ((List.take_prefix _ _).length_le) (List.takeWhile_prefix _).length_le
  have hrun : (charsScanner allowed min max).scan d r = (do
      if (min.map fun m => decide ((greedyRun allowed max c.rest).length < m)).getD false then do
        let _ ← Reader.resetToMark m
        pure .unmatch
      else pure (.match [.token d c.location (greedyRun allowed max c.rest)]) : RM Reader Reaction) r2 := by
    simp only [charsScanner, RM.bind_run, h1, location_at h2, e1, RM.get_run, h3]
  unfold charsRecognizer
  by_cases hmin : ∃ m, min = some m ∧ (greedyRun allowed max c.rest).length < m
  · simp only [if_pos hmin]
    obtain ⟨k, hk1, hk2⟩ := hmin
    obtain ⟨k3, r3, own', h5, h6⟩ := reset_back h4
    rw [hrun, hk1]
    simp only [Option.map_some, Option.getD_some, hk2, decide_true, if_true, RM.bind_run, h5, RM.pure_run]
    exact ⟨r3, own', rfl, h6.1, h6.2⟩
  · simp only [if_neg hmin]
    have : (min.map fun m => decide ((greedyRun allowed max c.rest).length < m)).getD false = false := by
      cases min with
      | none => rfl
      | some k =>
        simp only [Option.map_some, Option.getD_some, decide_eq_false_iff_not]
        exact fun hc => hmin ⟨k, rfl, hc⟩
    rw [hrun, this]
    simp only [Bool.false_eq_true, if_false, RM.pure_run]
    refine ⟨r2, own ++ [(m, c.pos)], rfl, hle, ?_, h4.2, fun _ => .token .nil⟩
    simpa [Cursor.advance] using h4.1

theorem regex_tidily (source : Str) (find : Str → Option (Nat × Nat)) :
    BehavesTidily dbg (regexScanner source find) (regexRecognizer find) := by
  intro d r c h hd
  obtain ⟨r1, h1, h2', h3⟩ := peek_at ⟨h, hd⟩ 257
  simp only [regexRecognizer, regexScanner, RM.bind_run, location_at ⟨h, hd⟩, h1]
  cases hf : find (c.rest.take 257) with
  | none => exact ⟨r1, [], rfl, h2'.1, h2'.2⟩
  | some x =>
    obtain ⟨off, len⟩ := x
    cases off with
    | succ off => exact ⟨r1, [], rfl, h2'.1, h2'.2⟩
    | zero =>
      simp only
      by_cases hl : ((c.rest.take 257).take len).length ≤ 256
      · rw [if_pos hl, if_neg (by omega)]
        obtain ⟨r2, h4, h5⟩ := skip_at h2' (n := ((c.rest.take 257).take len).length) (by simp only [List.length_take]; omega)
        simp only [RM.bind_run, h4, RM.pure_run]
        have ht : (c.rest.take 257).take len = c.rest.take len := by
          rw [List.take_take]
          simp only [List.length_take] at hl
          by_cases hlen : len ≤ 257
          · rw [Nat.min_eq_left hlen]
          · rw [Nat.min_eq_right (by omega), List.take_of_length_le (by omega), List.take_of_length_le (by omega)]
        have hn : min ((c.rest.take 257).take len).length c.rest.length = min len c.rest.length := by
          rw [ht, List.length_take]; omega
        rw [ht] at h5 hn ⊢
        rw [hn] at h5
        exact ⟨r2, [], rfl, by omega, h5.1, h5.2, fun _ => .token .nil⟩
      · rw [if_neg hl, if_pos (by omega)]
        simp only [RM.bind_run, location_at h2', RM.lift_run]
        exact ⟨r1, [], rfl, h2'.1, h2'.2⟩

theorem chars_behaves (allowed : Char → Bool) (min max : Option Nat) :
    Behaves dbg (charsScanner allowed min max) (charsRecognizer allowed min max) := tidily (chars_tidily allowed min max)

theorem regex_behaves (source : Str) (find : Str → Option (Nat × Nat)) :
    Behaves dbg (regexScanner source find) (regexRecognizer find) := tidily (regex_tidily source find)

end Ebnf
