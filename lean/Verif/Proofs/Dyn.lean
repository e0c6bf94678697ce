import Verif.Proofs.AnyReader
import Verif.Proofs.Scanners

set_option autoImplicit false

/-! # The machine on a reader of any make (lemmas for C99) -/

namespace Ebnf.Dyn

open Spec

variable {σ : Type} {dbg : Bool} {I : Methods σ} {At : σ → Cursor → Prop}

/-! ## The methods -/

theorem location_on (hI : LikeCursor dbg I At) {r : σ} {c : Cursor} (h : At r c) : Dyn.location I r = (.ok c.location, r) := by
  rw [Dyn.location, location_of hI trivial h]

theorem mark_on (hI : LikeCursor dbg I At) {r : σ} {c : Cursor} (h : At r c) :
    ∃ m r', I.mark r = (.ok m, r') ∧ At r' ⟨c.start, c.text, c.pos, (m, c.pos) :: c.marks⟩ := by
  obtain ⟨m, r', h1, h2, _⟩ := mark_of hI trivial h
  exact ⟨m, r', h1, h2⟩

theorem reset_on (hI : LikeCursor dbg I At) {r : σ} {start : Location} {text : Str} {pos : Nat} {own ms : List (Nat × Nat)}
    {m p : Nat} (h : At r ⟨start, text, pos, own ++ (m, p) :: ms⟩) :
    ∃ k r' own', I.resetToMark m r = (.ok k, r') ∧ At r' ⟨start, text, p, own' ++ ms⟩ := by
  obtain ⟨newer, own', h1, h2⟩ := split_mark (own := own) (ms := ms) (m := m) (p := p) (fun p' hp =>
    hI.marks r _ h m p' p hp (by simp))
  obtain ⟨r', h3, h4⟩ := reset_of hI trivial h1 h2 h
  exact ⟨_, r', own', h3, h4⟩

theorem unmark_on (hI : LikeCursor dbg I At) {r : σ} {start : Location} {text : Str} {pos : Nat} {own ms : List (Nat × Nat)}
    {m p : Nat} (h : At r ⟨start, text, pos, own ++ (m, p) :: ms⟩) :
    ∃ r' own', I.unmark m r = (.ok (), r') ∧ At r' ⟨start, text, pos, own' ++ ms⟩ := by
  obtain ⟨newer, own', h1, h2⟩ := split_mark (own := own) (ms := ms) (m := m) (p := p) (fun p' hp =>
    hI.marks r _ h m p' p hp (by simp))
  obtain ⟨r', h3, h4⟩ := unmark_of hI trivial h1 h2 h
  exact ⟨r', own', h3, h4⟩

theorem read_on (hI : LikeCursor dbg I At) {r : σ} {c : Cursor} (h : At r c) :
    ∃ r', I.read r = (.ok c.rest.head?, r') ∧ At r' (c.advance (min 1 c.rest.length)) := by
  obtain ⟨a, r', c', h1, h2, h3⟩ := hI.steps .read r c trivial (by simp) h
  cases h2 with
  | step h2 =>
    cases h2
    obtain ⟨y, h4, h5⟩ := answerOf_inv (f := .char) h1 (by simp) (by simp)
    cases h5
    exact ⟨r', h4, h3⟩

theorem isEof_on (hI : LikeCursor dbg I At) {r : σ} {c : Cursor} (h : At r c) :
    ∃ r', I.isEof r = (.ok (decide (c.rest = [])), r') ∧ At r' c := by
  obtain ⟨a, r', c', h1, h2, h3⟩ := hI.steps .isEof r c trivial (by simp) h
  cases h2 with
  | step h2 =>
    cases h2
    obtain ⟨y, h4, h5⟩ := answerOf_inv (f := .bool) h1 (by simp) (by simp)
    cases h5
    exact ⟨r', h4, h3⟩

theorem peek_on (hI : LikeCursor dbg I At) {r : σ} {c : Cursor} (h : At r c) (n : Nat) :
    ∃ r', I.peek n r = (.ok (c.rest.take n), r') ∧ At r' c := by
  obtain ⟨a, r', c', h1, h2, h3⟩ := hI.steps (.peek n) r c trivial (by simp) h
  cases h2 with
  | step h2 =>
    cases h2
    obtain ⟨y, h4, h5⟩ := answerOf_inv (f := .chars) h1 (by simp) (by simp)
    cases h5
    exact ⟨r', h4, h3⟩

theorem prefixMatches_on (hI : LikeCursor dbg I At) {r : σ} {c : Cursor} (h : At r c) (p : Str) :
    ∃ r', I.prefixMatches p r = (.ok (decide (p <+: c.rest)), r') ∧ At r' c := by
  obtain ⟨a, r', c', h1, h2, h3⟩ := hI.steps (.prefixMatches p) r c trivial (by simp) h
  cases h2 with
  | step h2 =>
    cases h2
    obtain ⟨y, h4, h5⟩ := answerOf_inv (f := .bool) h1 (by simp) (by simp)
    cases h5
    exact ⟨r', h4, h3⟩

theorem skip_on (hI : LikeCursor dbg I At) {r : σ} {c : Cursor} (h : At r c) (n : Nat) :
    ∃ r', I.skip n r = (.ok (min n c.rest.length), r') ∧ At r' (c.advance (min n c.rest.length)) := by
  obtain ⟨a, r', c', h1, h2, h3⟩ := hI.steps (.skip n) r c trivial (by simp) h
  cases h2 with
  | step h2 =>
    cases h2
    obtain ⟨y, h4, h5⟩ := answerOf_inv (f := .num) h1 (by simp) (by simp)
    cases h5
    exact ⟨r', h4, h3⟩

/-! ## Agreement with the machine without reader -/

/-- The result of a run on a reader at `c` with the marks `ms` is the outcome. -/
def AgreesM (At : σ → Cursor → Prop) (c : Cursor) (ms : List (Nat × Nat)) (x : Res (Prospect × List Event) × σ) : Option Outcome → Prop
  | none => x.1 = .diverge
  | some (.ok evs n) => x.1 = .ok (.proceed, evs) ∧ n ≤ c.rest.length ∧
      ∃ own, At x.2 ⟨c.start, c.text, c.pos + n, own ++ ms⟩
  | some (.fail e evs n) => x.1 = .ok (.notThisWay e, evs) ∧ n ≤ c.rest.length ∧
      ∃ own, At x.2 ⟨c.start, c.text, c.pos + n, own ++ ms⟩
  | some (.abort e) => x.1 = .err e ∧ ∃ p own, At x.2 ⟨c.start, c.text, p, own ++ ms⟩
  | some (.panic p) => x.1 = .panic p

/-- The result of a run on a reader at `c` is the outcome. -/
abbrev Agrees (At : σ → Cursor → Prop) (c : Cursor) (x : Res (Prospect × List Event) × σ) (o : Option Outcome) : Prop :=
  AgreesM At c c.marks x o

/-- The run on a reader is the pure run. -/
def Sims (At : σ → Cursor → Prop) (run : RM σ (Prospect × List Event)) (p : PRun) : Prop := ∀ r c, At r c → Agrees At c (run r) (p c.location c.rest)

/-- Mark, then run. -/
theorem mark_run (hI : LikeCursor dbg I At) {run : RM σ (Prospect × List Event)} {p : PRun} (hs : Sims At run p) {r : σ} {c : Cursor} (h : At r c) :
    ∃ m r', I.mark r = (.ok m, r') ∧ At r' ⟨c.start, c.text, c.pos, (m, c.pos) :: c.marks⟩ ∧
      AgreesM At c ((m, c.pos) :: c.marks) (run r') (p c.location c.rest) := by
  obtain ⟨m, r', h1, h2⟩ := mark_on hI h
  exact ⟨m, r', h1, h2, hs r' _ h2⟩

theorem streamPrefix_on (hI : LikeCursor dbg I At) {r : σ} {c : Cursor} (h : At r c) :
    ∃ r', streamPrefix I r = (.ok (ahead c.rest), r') ∧ At r' c := by
  obtain ⟨r1, h1, h2⟩ := isEof_on hI h
  unfold streamPrefix
  simp only [RM.bind_run, h1]
  by_cases hr : c.rest = []
  · rw [decide_eq_true hr]
    simp only [if_true, RM.pure_run]
    refine ⟨r1, ?_, h2⟩
    simp [ahead, hr]
  · rw [decide_eq_false hr]
    simp only [Bool.false_eq_true, if_false]
    obtain ⟨r2, h4, h5⟩ := peek_on hI h2 9
    simp only [RM.bind_run, h4, RM.pure_run]
    exact ⟨r2, by rw [ahead_peek _ hr], h5⟩

theorem errExpected_on (hI : LikeCursor dbg I At) {g : Graph} {current : Option Nat} {r : σ} {c : Cursor} (h : At r c) :
    ∃ r', errExpected I g current r = (.ok (expectedAt (symbolAt g current) c.location c.rest), r') ∧ At r' c := by
  obtain ⟨r1, h1, h2⟩ := streamPrefix_on hI h
  unfold errExpected
  simp only [h1]
  exact ⟨r1, by rw [location_of hI trivial h]; rfl, h2⟩

/-- The continuation of an agreeing run. -/
theorem agrees_shift {c : Cursor} {n : Nat} {own ms : List (Nat × Nat)} {x : Res (Prospect × List Event) × σ}
    {o : Option Outcome} (hn : n ≤ c.rest.length)
    (h : Agrees At ⟨c.start, c.text, c.pos + n, own ++ ms⟩ x o) :
    AgreesM At c ms x (o.map fun
      | .ok evs m => .ok evs (n + m)
      | .fail e evs m => .fail e evs (n + m)
      | o => o) := by
  cases o with
  | none => exact h
  | some o =>
    cases o with
    | ok evs m =>
      obtain ⟨h1, h2, own', h3⟩ := h
      rw [moved_rest, List.length_drop] at h2
      exact ⟨h1, by omega, own' ++ own, by simpa [Nat.add_assoc] using h3⟩
    | fail e evs m =>
      obtain ⟨h1, h2, own', h3⟩ := h
      rw [moved_rest, List.length_drop] at h2
      exact ⟨h1, by omega, own' ++ own, by simpa [Nat.add_assoc] using h3⟩
    | abort e =>
      obtain ⟨h1, p, own', h3⟩ := h
      exact ⟨h1, p, own' ++ own, by simpa using h3⟩
    | panic p => exact h

/-- Marks on top are own marks. -/
theorem agreesM_drop {c : Cursor} {x : Res (Prospect × List Event) × σ} {o : Option Outcome}
    {top ms : List (Nat × Nat)} (h : AgreesM At c (top ++ ms) x o) : AgreesM At c ms x o := by
  cases o with
  | none => exact h
  | some o =>
    cases o with
    | ok evs m =>
      obtain ⟨h1, h2, own', h3⟩ := h
      exact ⟨h1, h2, own' ++ top, by simpa using h3⟩
    | fail e evs m =>
      obtain ⟨h1, h2, own', h3⟩ := h
      exact ⟨h1, h2, own' ++ top, by simpa using h3⟩
    | abort e =>
      obtain ⟨h1, p, own', h3⟩ := h
      exact ⟨h1, p, own' ++ top, by simpa using h3⟩
    | panic p => exact h

/-! ## Repetitions -/

theorem sims_loop (hI : LikeCursor dbg I At) {body : RM σ (Prospect × List Event)} {pbody : PRun} (hb : Sims At body pbody) (min max fuel : Nat) :
    ∀ (i : Nat) (temp : List Event) (r : σ) (c : Cursor), At r c →
      Agrees At c (repetitionLoop I body min max fuel i temp r)
        ((ploop pbody min max fuel i c.location c.rest).map (withEvents temp)) := by
  induction fuel with
  | zero => intro i temp r c h; rfl
  | succ fuel ih =>
    intro i temp r c h
    unfold repetitionLoop ploop
    by_cases hi : i < max
    · rw [if_pos hi, if_pos hi]
      obtain ⟨m, r1, h1, h2, hx⟩ := mark_run hI hb h
      simp only [RM.bind_run, location_on hI h, h1]
      generalize body r1 = x at hx
      generalize hpo : pbody c.location c.rest = o at hx
      obtain ⟨res, r2⟩ := x
      cases o with
      | none => simp only [AgreesM] at hx; subst hx; rfl
      | some o =>
        cases o with
        | ok evs n =>
          obtain ⟨hx1, hx2, own, hx3⟩ := hx
          simp only at hx1; subst hx1
          simp only [RM.bind_run, location_on hI hx3, moved_location hx2]
          by_cases hl : max = u32Max ∧ n = 0
          · rw [if_pos hl, if_pos ⟨hl.1, by rw [lineColumn_self_iff, take_eq_nil_iff' hx2]; exact hl.2⟩]
            exact ⟨rfl, _, own ++ [(m, c.pos)], by simpa using hx3⟩
          · rw [if_neg hl, if_neg (by rw [lineColumn_self_iff, take_eq_nil_iff' hx2]; exact hl)]
            have := agreesM_drop (top := [(m, c.pos)]) (agrees_shift hx2 (ih (i + 1) (temp ++ evs) r2 _ hx3))
            rw [moved_location hx2, moved_rest] at this
            revert this
            generalize ploop pbody min max fuel (i + 1) (lineColumn c.location (c.rest.take n)) (c.rest.drop n) = o
            intro this
            cases o with
            | none => exact this
            | some o => cases o <;> simpa [withEvents, Outcome.afterRound] using this
        | fail e evs n =>
          obtain ⟨hx1, hx2, own, hx3⟩ := hx
          simp only at hx1; subst hx1
          simp only
          by_cases hm : i < min
          · rw [if_pos hm, if_pos hm]
            exact ⟨rfl, hx2, own ++ [(m, c.pos)], by simpa using hx3⟩
          · rw [if_neg hm, if_neg hm]
            obtain ⟨k, r3, own', h3, h4⟩ := reset_on hI hx3
            simp only [RM.bind_run, h3, RM.pure_run]
            exact ⟨rfl, by simp, own', h4⟩
        | abort e =>
          obtain ⟨hx1, p, own, hx3⟩ := hx
          simp only at hx1; subst hx1
          exact ⟨rfl, p, own ++ [(m, c.pos)], by simpa using hx3⟩
        | panic p => simp only [AgreesM] at hx; subst hx; rfl
    · rw [if_neg hi, if_neg hi]
      exact ⟨by simp, by simp, [], by simpa using h⟩

/-! ## Alternatives -/

theorem sims_or (hI : LikeCursor dbg I At) {run : Nat → RM σ (Prospect × List Event)} {p : Nat → PRun} (hs : ∀ a, Sims At (run a) (p a)) (subs : List Nat) :
    ∀ (errors : List Error) (r : σ) (c : Cursor), At r c → subs ≠ [] →
      match por p subs c.location c.rest with
      | none => (orLoop I run subs errors r).1 = .diverge
      | some (.ok evs n) => (orLoop I run subs errors r).1 = .ok (.ok evs) ∧ n ≤ c.rest.length ∧
          ∃ own, At (orLoop I run subs errors r).2 ⟨c.start, c.text, c.pos + n, own ++ c.marks⟩
      | some (.fail e evs n) => ∃ es last others, (orLoop I run subs errors r).1 = .ok (.error (errors ++ es)) ∧
          es.reverse = last :: others ∧ pickError last others = e ∧ evs = [] ∧ n = 0 ∧
          ∃ own, At (orLoop I run subs errors r).2 ⟨c.start, c.text, c.pos, own ++ c.marks⟩
      | some (.abort e) => (orLoop I run subs errors r).1 = .err e ∧
          ∃ p own, At (orLoop I run subs errors r).2 ⟨c.start, c.text, p, own ++ c.marks⟩
      | some (.panic p) => (orLoop I run subs errors r).1 = .panic p := by
  induction subs with
  | nil => intro errors r c h hne; exact absurd rfl hne
  | cons a l ih =>
    intro errors r c h _
    obtain ⟨m, r1, h1, h2, hx⟩ := mark_run hI (hs a) h
    have hloop : orLoop I run (a :: l) errors r =
        (match run a r1 with
        | (.ok (.proceed, evs), r2) => (.ok (.ok evs), r2)
        | (.ok (.notThisWay e, _), r2) =>
          (match I.resetToMark m r2 with
          | (.ok _, r3) => orLoop I run l (errors ++ [e]) r3
          | (.err e, r3) => (.err e, r3)
          | (.panic p, r3) => (.panic p, r3)
          | (.diverge, r3) => (.diverge, r3))
        | (.err e, r2) => (.err e, r2)
        | (.panic p, r2) => (.panic p, r2)
        | (.diverge, r2) => (.diverge, r2)) := by
      conv => lhs; unfold orLoop
      simp only [RM.bind_run, h1]
      generalize run a r1 = x
      obtain ⟨res, r2⟩ := x
      cases res with
      | ok pe =>
        obtain ⟨pr, evs⟩ := pe
        cases pr with
        | proceed => rfl
        | notThisWay e =>
          simp only [RM.bind_run]
          generalize I.resetToMark m r2 = y
          obtain ⟨resy, r3⟩ := y
          cases resy <;> rfl
      | err e => rfl
      | panic q => rfl
      | diverge => rfl
    rw [hloop]
    generalize run a r1 = x at hx
    obtain ⟨res, r2⟩ := x
    have hpor : por p (a :: l) c.location c.rest =
        (match p a c.location c.rest with
        | some (.fail e _ _) =>
          (match l with
          | [] => some (.fail e [] 0)
          | b :: l' =>
            match por p (b :: l') c.location c.rest with
            | some (.fail e' _ _) => some (.fail (laterError e e') [] 0)
            | o => o)
        | o => o) := by
      cases l <;> rfl
    rw [hpor]
    generalize p a c.location c.rest = o at hx
    cases o with
    | none => simp only [AgreesM] at hx; subst hx; rfl
    | some o =>
      cases o with
      | ok evs n =>
        obtain ⟨hx1, hx2, own, hx3⟩ := hx
        simp only at hx1; subst hx1
        exact ⟨rfl, hx2, own ++ [(m, c.pos)], by simpa using hx3⟩
      | abort e =>
        obtain ⟨hx1, p, own, hx3⟩ := hx
        simp only at hx1; subst hx1
        exact ⟨rfl, p, own ++ [(m, c.pos)], by simpa using hx3⟩
      | panic q => simp only [AgreesM] at hx; subst hx; rfl
      | fail e evs n =>
        obtain ⟨hx1, hx2, own, hx3⟩ := hx
        simp only at hx1; subst hx1
        simp only
        obtain ⟨k, r3, own', h3, h4⟩ := reset_on hI hx3
        simp only [h3]
        cases l with
        | nil => exact ⟨[e], e, [], rfl, rfl, rfl, rfl, rfl, own', h4⟩
        | cons b l' =>
          have hi := ih (errors ++ [e]) r3 _ h4 (by simp)
          simp only at hi ⊢
          have e1 : (⟨c.start, c.text, c.pos, own' ++ c.marks⟩ : Cursor).location = c.location := rfl
          have e2 : (⟨c.start, c.text, c.pos, own' ++ c.marks⟩ : Cursor).rest = c.rest := rfl
          rw [e1, e2] at hi
          generalize por p (b :: l') c.location c.rest = o at hi
          cases o with
          | none => exact hi
          | some o =>
            cases o with
            | ok evs' n' =>
              obtain ⟨i1, i2, own2, i3⟩ := hi
              exact ⟨i1, i2, own2 ++ own', by simpa using i3⟩
            | fail e' evs' n' =>
              obtain ⟨es, last, others, i1, i2, i3, i4, i5, own2, i6⟩ := hi
              refine ⟨e :: es, last, others ++ [e], by simpa using i1, by simp [i2], ?_, rfl, rfl, own2 ++ own', by simpa using i6⟩
              rw [pickError_concat, i3]
            | abort e' =>
              obtain ⟨i1, p, own2, i3⟩ := hi
              exact ⟨i1, p, own2 ++ own', by simpa using i3⟩
            | panic q => exact hi

/-! ## Exceptions -/

theorem capture_at (hI : LikeCursor dbg I At) (n : Nat) : ∀ (fuel : Nat) (r : σ) (c : Cursor), At r c → c.marks ≠ [] → n ≤ c.rest.length →
    n < fuel → ∃ r', captureLoop I (lineColumn c.location (c.rest.take n)) fuel r = (.ok (c.rest.take n), r') ∧
      At r' ⟨c.start, c.text, c.pos + n, c.marks⟩ := by
  induction n with
  | zero =>
    intro fuel r c h hms hn hf
    obtain ⟨fuel, rfl⟩ : ∃ k, fuel = k + 1 := ⟨fuel - 1, by omega⟩
    unfold captureLoop
    simp only [RM.bind_run, location_on hI h, List.take_zero, lineColumn_nil]
    rw [if_neg (by omega)]
    exact ⟨r, rfl, h⟩
  | succ n ih =>
    intro fuel r c h hms hn hf
    obtain ⟨fuel, rfl⟩ : ∃ k, fuel = k + 1 := ⟨fuel - 1, by omega⟩
    obtain ⟨x, xs, hr⟩ : ∃ x xs, c.rest = x :: xs := by
      cases hc : c.rest with
      | nil => rw [hc] at hn; simp at hn
      | cons x xs => exact ⟨x, xs, rfl⟩
    have hcond : c.location.lines < (lineColumn c.location (c.rest.take (n + 1))).lines ∨
        c.location.columns < (lineColumn c.location (c.rest.take (n + 1))).columns := by
      have := Location.pushStr_progress c.location (c.rest.take (n + 1)) (by rw [hr]; simp)
      rw [Location.pushStr_eq_lineColumn] at this
      omega
    unfold captureLoop
    simp only [RM.bind_run, location_on hI h]
    rw [if_pos hcond]
    obtain ⟨r1, h1, h2⟩ := read_on hI h
    have hlen : c.rest.length = xs.length + 1 := by rw [hr]; rfl
    rw [Nat.min_eq_left (by omega)] at h2
    have hx : (c.advance 1).rest = xs := rest_cons hr
    have hl : lineColumn (c.advance 1).location ((c.advance 1).rest.take n) =
        lineColumn c.location (c.rest.take (n + 1)) := by
      rw [loc_advance (by omega), lineColumn_append, hx, hr]
      simp
    obtain ⟨r2, h4, h5⟩ := ih fuel r1 (c.advance 1) h2 hms (by rw [hx]; omega) (by omega)
    rw [hl] at h4
    simp only [RM.bind_run, h1, hr, List.head?_cons, RM.pure_run]
    rw [hr] at h4
    simp only [h4]
    refine ⟨r2, ?_, ?_⟩
    · rw [hx]; rfl
    · have : c.pos + (n + 1) = c.pos + 1 + n := by omega
      rw [this]; exact h5

theorem sims_exception (hI : LikeCursor dbg I At) {g : Graph} {addr : Nat} {runF : RM σ (Prospect × List Event)} {runX : Run} {pF pX : PRun}
    (hf : Sims At runF pF) (hx : Ebnf.Sims dbg runX pX) :
    Sims At (scanException I g addr runF runX) (fun here rest =>
      match pF here rest with
      | some (.ok evs n) =>
        match pX here (rest.take n) with
        | some (.ok _ m) =>
          if m = n then some (.fail (expectedAt (symbolAt g (some addr)) here rest) [] 0) else some (.ok evs n)
        | some (.fail _ _ _) => some (.ok evs n)
        | o => o
      | some (.fail e _ _) => some (.fail e [] 0)
      | o => o) := by
  intro r c h
  obtain ⟨m, r1, h1, h2, ha⟩ := mark_run hI hf h
  unfold scanException
  simp only [RM.bind_run, location_on hI h, h1]
  generalize runF r1 = x at ha
  generalize pF c.location c.rest = o at ha
  obtain ⟨res, r2⟩ := x
  cases o with
  | none => simp only [AgreesM] at ha; subst ha; rfl
  | some o =>
    cases o with
    | abort e =>
      obtain ⟨ha1, p, own, ha3⟩ := ha
      simp only at ha1; subst ha1
      exact ⟨rfl, p, own ++ [(m, c.pos)], by simpa using ha3⟩
    | panic q => simp only [AgreesM] at ha; subst ha; rfl
    | fail e evs n =>
      obtain ⟨ha1, ha2, own, ha3⟩ := ha
      simp only at ha1; subst ha1
      obtain ⟨k, r3, own', h3, h4⟩ := reset_on hI ha3
      simp only [RM.bind_run, h3, RM.pure_run]
      exact ⟨rfl, by simp, own', h4⟩
    | ok evs n =>
      obtain ⟨ha1, ha2, own, ha3⟩ := ha
      simp only at ha1; subst ha1
      obtain ⟨k, r3, own', h3, h4⟩ := reset_on hI ha3
      obtain ⟨m', r4, h5, h6⟩ := mark_on hI h4
      have hsz := hI.size _ _ h6
      have hrest : (⟨c.start, c.text, c.pos, (m', c.pos) :: (own' ++ c.marks)⟩ : Cursor).rest = c.rest := rfl
      have hloc : (⟨c.start, c.text, c.pos, (m', c.pos) :: (own' ++ c.marks)⟩ : Cursor).location = c.location := rfl
      simp only at hsz
      rw [hrest] at hsz
      obtain ⟨r5, h7, h8⟩ := capture_at hI n (I.size r4 + 1) r4 _ h6 (by simp) ha2 (by omega)
      simp only [hrest, hloc] at h7
      simp only [RM.bind_run, location_on hI ha3, moved_location ha2, h3, h5, RM.get_run, h7, location_on hI h8]
      rw [if_neg (by simp), hI.debug _ _ h6]
      have hrep : Ebnf.Stands dbg (Reader.withLocation c.location (.buffered (c.rest.take n)) dbg)
          ⟨c.location, c.rest.take n, 0, []⟩ :=
        ⟨(new_rep ⟨[], rfl, by simp [Source.buffered]⟩ dbg).toRep, rfl⟩
      have hxx := hx _ _ hrep
      have hr0 : (⟨c.location, c.rest.take n, 0, []⟩ : Cursor).rest = c.rest.take n := rfl
      have hl0 : (⟨c.location, c.rest.take n, 0, []⟩ : Cursor).location = c.location := by
        simp [Cursor.location, lineColumn_nil]
      rw [hr0, hl0] at hxx
      simp only [RM.bind_run, RM.lift_run]
      generalize runX (Reader.withLocation c.location (Source.buffered (c.rest.take n)) dbg) = y at hxx
      generalize pX c.location (c.rest.take n) = oy at hxx
      obtain ⟨resy, ry⟩ := y
      have hlen : (c.rest.take n).length = n := by rw [List.length_take]; omega
      cases oy with
      | none => simp only [Ebnf.Agrees, Ebnf.AgreesM] at hxx; subst hxx; rfl
      | some oy =>
        cases oy with
        | abort e =>
          obtain ⟨hb1, _⟩ := hxx
          simp only at hb1; subst hb1
          exact ⟨rfl, _, (m', c.pos) :: own', h8⟩
        | panic q => simp only [Ebnf.Agrees, Ebnf.AgreesM] at hxx; subst hxx; rfl
        | fail e evs' k' =>
          obtain ⟨hb1, hb2, ownb, hb3⟩ := hxx
          simp only at hb1; subst hb1
          simp only [RM.pure_run, Bool.false_eq_true, if_false]
          exact ⟨rfl, ha2, (m', c.pos) :: own', h8⟩
        | ok evs' k' =>
          obtain ⟨hb1, hb2, ownb, hb3⟩ := hxx
          simp only at hb1; subst hb1
          obtain ⟨r6, h9, h10⟩ := isEof_at hb3
          simp only [h9]
          rw [hr0] at hb2
          have hke : (⟨c.location, c.rest.take n, 0 + k', ownb ++ []⟩ : Cursor).rest = [] ↔ k' = n := by
            rw [Cursor.rest]
            simp only [List.drop_eq_nil_iff]
            omega
          by_cases hk : k' = n
          · rw [decide_eq_true (hke.mpr hk), if_pos rfl]
            obtain ⟨k2, r7, own3, h11, h12⟩ := reset_on hI (own := []) h8
            obtain ⟨r8, h13, h14⟩ := errExpected_on hI (g := g) (current := some addr) h12
            simp only [RM.bind_run, h11, h13, RM.pure_run]
            rw [if_pos hk]
            exact ⟨rfl, by simp, own3 ++ own', by simpa using h14⟩
          · rw [decide_eq_false (fun hc => hk (hke.mp hc))]
            simp only [Bool.false_eq_true, if_false, RM.pure_run]
            rw [if_neg hk]
            exact ⟨rfl, ha2, (m', c.pos) :: own', h8⟩

/-! ## Scanners -/

theorem sims_terminal (hI : LikeCursor dbg I At) {g : Graph} {addr : Nat} {instr : Instruction} {s : Str} :
    Sims At (scanTerminal I g addr instr s) (fun here rest =>
      if s <+: rest then some (.ok [.token instr.definition here s] s.length)
      else some (.fail (expectedAt (symbolAt g (some addr)) here rest) [] 0)) := by
  intro r c h
  obtain ⟨r1, h1, h2⟩ := prefixMatches_on hI h s
  unfold scanTerminal
  simp only [RM.bind_run, h1]
  by_cases hp : s <+: c.rest
  · rw [decide_eq_true hp, if_pos rfl, if_pos hp]
    obtain ⟨r2, h4, h5⟩ := skip_on hI h2 s.length
    rw [Nat.min_eq_left hp.length_le] at h5
    simp only [RM.bind_run, location_on hI h2, h4, RM.pure_run]
    exact ⟨rfl, hp.length_le, [], h5⟩
  · rw [decide_eq_false hp, if_neg hp]
    simp only [Bool.false_eq_true, if_false]
    obtain ⟨r2, h4, h5⟩ := errExpected_on hI (g := g) (current := some addr) h2
    simp only [RM.bind_run, h4, RM.pure_run]
    exact ⟨rfl, by simp, [], h5⟩

theorem sims_special (hI : LikeCursor dbg I At) {g : Graph} {addr : Nat} {instr : Instruction} {scan : Location → RM σ Reaction} {f : Recognizer}
    (hb : BehavesOn dbg At scan f) {run : Nat → RM σ (Prospect × List Event)} {p : Nat → PRun} (hs : ∀ a, Sims At (run a) (p a)) :
    Sims At (scanSpecial I g addr instr scan run) (fun here rest =>
      match f instr.definition here rest with
      | .accept evs n => some (.ok evs n)
      | .unmatched => some (.fail (expectedAt (symbolAt g (some addr)) here rest) [] 0)
      | .error e => some (.abort e)
      | .forward name n =>
        match g.indexOfLabel name with
        | none => some (.abort ⟨here, .forwardUndefined name instr.symbol instr.definition⟩)
        | some address =>
          match p address (lineColumn here (rest.take n)) (rest.drop n) with
          | some (.ok evs m) => some (.ok evs (n + m))
          | some (.fail _ evs m) => some (.ok evs (n + m))
          | o => o) := by
  intro r c h
  obtain ⟨m, r1, h1, h2⟩ := mark_on hI h
  have hb' := hb instr.definition r1 _ h2 (by simp)
  have e1 : (⟨c.start, c.text, c.pos, (m, c.pos) :: c.marks⟩ : Cursor).location = c.location := rfl
  have e2 : (⟨c.start, c.text, c.pos, (m, c.pos) :: c.marks⟩ : Cursor).rest = c.rest := rfl
  rw [e1, e2] at hb'
  unfold scanSpecial
  simp only [RM.bind_run, h1]
  generalize f instr.definition c.location c.rest = o at hb'
  cases o with
  | accept evs n =>
    obtain ⟨r2, own, h3, h4, h5, _⟩ := hb'
    obtain ⟨r3, own', h7, h8⟩ := unmark_on hI (r := r2) (start := c.start) (text := c.text) (pos := c.pos + n) (own := own)
      (m := m) (p := c.pos) (ms := c.marks) h5
    simp only [h3, RM.bind_run, h7, RM.pure_run]
    exact ⟨rfl, h4, own', h8⟩
  | unmatched =>
    obtain ⟨r2, own, pp, h3, h5⟩ := hb'
    obtain ⟨k, r3, own', h7, h8⟩ := reset_on hI (r := r2) (start := c.start) (text := c.text) (pos := pp) (own := own)
      (m := m) (p := c.pos) (ms := c.marks) h5
    obtain ⟨r4, h9, h10⟩ := errExpected_on hI (g := g) (current := some addr) h8
    simp only [h3, RM.bind_run, h7, h9, RM.pure_run]
    exact ⟨rfl, by simp, own', h10⟩
  | error e =>
    obtain ⟨r2, own, p, h3, h4⟩ := hb'
    simp only [h3]
    exact ⟨rfl, p, own ++ [(m, c.pos)], by simpa using h4⟩
  | forward name n =>
    obtain ⟨r2, own, h3, h4, h5⟩ := hb'
    have h56 : At r2 ⟨c.start, c.text, c.pos + n, own ++ (m, c.pos) :: c.marks⟩ := h5
    simp only [h3]
    cases hl : g.indexOfLabel name with
    | none =>
      obtain ⟨k, r3, own', h7, h8⟩ := reset_on hI h56
      simp only [RM.bind_run, h7, location_on hI h8, RM.lift_run]
      exact ⟨rfl, _, own', h8⟩
    | some address =>
      obtain ⟨r3, own', h7, h8⟩ := unmark_on hI h56
      have ha := agrees_shift h4 (hs address r3 _ h8)
      have hnn : n ≤ c.rest.length := h4
      rw [moved_location hnn, moved_rest] at ha
      simp only [RM.bind_run, h7]
      generalize run address r3 = x at ha
      generalize p address (lineColumn c.location (c.rest.take n)) (c.rest.drop n) = o at ha
      obtain ⟨res, r4⟩ := x
      cases o with
      | none => have : res = .diverge := ha; subst this; rfl
      | some o =>
        cases o with
        | ok evs k => obtain ⟨a1, a2⟩ := ha; simp only at a1; subst a1; exact ⟨rfl, a2⟩
        | fail e evs k => obtain ⟨a1, a2⟩ := ha; simp only at a1; subst a1; exact ⟨rfl, a2⟩
        | abort e => obtain ⟨a1, a2⟩ := ha; simp only at a1; subst a1; exact ⟨rfl, a2⟩
        | panic q => have : res = .panic q := ha; subst this; rfl

/-! ## Instructions -/

/-- The scanners of the graph do what `sem` says. -/
def GraphBehavesOn (dbg : Bool) (At : σ → Cursor → Prop) (scan : SpecialScanner → Location → RM σ Reaction)
    (sem : SpecialScanner → Recognizer) (g : Graph) : Prop :=
  ∀ addr instr scanner, g.instruction addr = some instr → instr.step = .scan (.special scanner) →
    BehavesOn dbg At (scan scanner) (sem scanner)

theorem sims_step (hI : LikeCursor dbg I At) {scan : SpecialScanner → Location → RM σ Reaction}
    {sem : SpecialScanner → Recognizer} {g : Graph} (hg : GraphBehavesOn dbg At scan sem g)
    {run : Nat → RM σ (Prospect × List Event)} {inner : Nat → Run} {p : Nat → PRun} (hs : ∀ a, Sims At (run a) (p a))
    (hin : ∀ a, Ebnf.Sims dbg (inner a) (p a)) (fuel addr : Nat) (instr : Instruction)
    (hi : g.instruction addr = some instr) :
    Sims At (execStep I scan g run inner fuel addr instr) (pexec sem g p fuel addr instr) := by
  intro r c h
  unfold execStep pexec
  cases hst : instr.step with
  | repetition min max sub =>
    have := sims_loop hI (hs sub) min max fuel 0 [] r c h
    simp only
    revert this
    generalize ploop (p sub) min max fuel 0 c.location c.rest = o
    intro this
    cases o with
    | none => exact this
    | some o => cases o <;> simpa [withEvents] using this
  | or subs =>
    simp only [RM.bind_run]
    by_cases hne : subs = []
    · subst hne
      simp only [orLoop, por, RM.pure_run, List.reverse_nil, RM.lift_run]
      rfl
    · have ho := sims_or hI hs subs [] r c h hne
      generalize orLoop I run subs [] r = x at ho
      generalize por p subs c.location c.rest = o at ho
      obtain ⟨res, r1⟩ := x
      cases o with
      | none => simp only at ho; subst ho; rfl
      | some o =>
        cases o with
        | ok evs n => obtain ⟨a1, a2⟩ := ho; simp only at a1; subst a1; exact ⟨rfl, a2⟩
        | abort e => obtain ⟨a1, a2⟩ := ho; simp only at a1; subst a1; exact ⟨rfl, a2⟩
        | panic q => simp only at ho; subst ho; rfl
        | fail e evs n =>
          obtain ⟨es, last, others, a1, a2, a3, _, _, own, a6⟩ := ho
          simp only [List.nil_append] at a1; subst a1
          simp only [a2, a3, RM.bind_run, location_on hI a6]
          have e1 : (⟨c.start, c.text, c.pos, own ++ c.marks⟩ : Cursor).location = c.location := rfl
          rw [e1]
          by_cases hc : e.location = c.location
          · rw [if_pos hc, if_pos hc]
            obtain ⟨r2, b1, b2⟩ := errExpected_on hI (g := g) (current := some addr) a6
            simp only [RM.bind_run, b1, RM.pure_run]
            exact ⟨rfl, by simp, own, b2⟩
          · rw [if_neg hc, if_neg hc]
            exact ⟨rfl, by simp, own, a6⟩
  | alias name =>
    simp only
    cases g.indexOfLabel name with
    | none => rfl
    | some address =>
      simp only
      cases g.canonicalName name with
      | none => rfl
      | some label =>
        simp only [RM.bind_run, location_on hI h]
        have ha := hs address r c h
        generalize run address r = x at ha
        generalize p address c.location c.rest = o at ha
        obtain ⟨res, r1⟩ := x
        cases o with
        | none => have : res = .diverge := ha; subst this; rfl
        | some o =>
          cases o with
          | ok evs k =>
            obtain ⟨a1, a2, own, a3⟩ := ha
            simp only at a1; subst a1
            simp only [RM.bind_run, location_on hI a3, RM.pure_run, moved_location a2]
            exact ⟨rfl, a2, own, a3⟩
          | fail e evs k => obtain ⟨a1, a2⟩ := ha; simp only at a1; subst a1; exact ⟨rfl, a2⟩
          | abort e => obtain ⟨a1, a2⟩ := ha; simp only at a1; subst a1; exact ⟨rfl, a2⟩
          | panic q => have : res = .panic q := ha; subst this; rfl
  | scan sc =>
    cases sc with
    | terminal s => exact sims_terminal hI r c h
    | special scanner => exact sims_special hI (hg addr instr scanner hi hst) hs r c h
    | empty => exact ⟨rfl, by simp, [], h⟩
    | exception f x => exact sims_exception hI (hs f) (hin x) r c h

/-- The machine on a reader is the pure machine. -/
theorem sims_run (hI : LikeCursor dbg I At) {scan : SpecialScanner → Location → RM σ Reaction}
    {sem : SpecialScanner → Recognizer} {g : Graph} (hg : GraphBehavesOn dbg At scan sem g) (hc : GraphBehaves dbg sem g)
    (fuel : Nat) : ∀ next, Sims At (runFrom I scan g fuel next) (prun sem g fuel next) := by
  induction fuel with
  | zero => intro next r c h; rfl
  | succ fuel ih =>
    intro next r c h
    cases next with
    | none => exact ⟨rfl, by simp, [], h⟩
    | some addr =>
      unfold runFrom prun
      cases hi : g.instruction addr with
      | none => rfl
      | some instr =>
        simp only [RM.bind_run]
        have ha := sims_step hI hg (fun a => ih (some a)) (fun a => Ebnf.sims_run hc fuel (some a)) fuel addr instr hi r c h
        generalize execStep I scan g (fun a => runFrom I scan g fuel (some a)) (fun a => Ebnf.runFrom g fuel (some a)) fuel
          addr instr r = x at ha
        generalize pexec sem g (fun a => prun sem g fuel (some a)) fuel addr instr c.location c.rest = o at ha
        obtain ⟨res, r1⟩ := x
        cases o with
        | none => have : res = .diverge := ha; subst this; rfl
        | some o =>
          cases o with
          | ok evs n =>
            obtain ⟨a1, a2, own, a3⟩ := ha
            simp only at a1; subst a1
            have hb := agrees_shift a2 (ih instr.next r1 _ a3)
            rw [moved_location a2, moved_rest] at hb
            simp only [RM.bind_run]
            generalize runFrom I scan g fuel instr.next r1 = y at hb
            generalize prun sem g fuel instr.next (lineColumn c.location (c.rest.take n)) (c.rest.drop n) = o at hb
            obtain ⟨resy, r2⟩ := y
            cases o with
            | none => have : resy = .diverge := hb; subst this; rfl
            | some o =>
              cases o with
              | ok evs' k => obtain ⟨b1, b2⟩ := hb; simp only at b1; subst b1; exact ⟨rfl, b2⟩
              | fail e evs' k => obtain ⟨b1, b2⟩ := hb; simp only at b1; subst b1; exact ⟨rfl, b2⟩
              | abort e => obtain ⟨b1, b2⟩ := hb; simp only at b1; subst b1; exact ⟨rfl, b2⟩
              | panic q => have : resy = .panic q := hb; subst this; rfl
          | fail e evs k => obtain ⟨a1, a2⟩ := ha; simp only at a1; subst a1; exact ⟨rfl, a2⟩
          | abort e => obtain ⟨a1, a2⟩ := ha; simp only at a1; subst a1; exact ⟨rfl, a2⟩
          | panic q => have : res = .panic q := ha; subst this; rfl

theorem parse_pure (hI : LikeCursor dbg I At) {scan : SpecialScanner → Location → RM σ Reaction}
    {sem : SpecialScanner → Recognizer} {m : Machine} (hg : GraphBehavesOn dbg At scan sem m.graph)
    (hc : GraphBehaves dbg sem m.graph) (fuel : Nat)
    {r : σ} {c : Cursor} (h : At r c) :
    (Dyn.parse I scan m fuel r).1 = pparse dbg sem m fuel c.location c.rest := by
  have ha := sims_run hI hg hc fuel (some m.entry) r c h
  unfold Dyn.parse pparse
  simp only [RM.bind_run]
  generalize runFrom I scan m.graph fuel (some m.entry) r = x at ha
  generalize prun sem m.graph fuel (some m.entry) c.location c.rest = o at ha
  obtain ⟨res, r1⟩ := x
  cases o with
  | none => have : res = .diverge := ha; subst this; rfl
  | some o =>
    cases o with
    | ok evs n =>
      obtain ⟨a1, a2, own, a3⟩ := ha
      simp only at a1; subst a1
      obtain ⟨r2, b1, b2'⟩ := isEof_on hI a3
      simp only [RM.bind_run, b1, moved_rest]
      have he : c.rest.drop n = [] ↔ n = c.rest.length := by
        rw [List.drop_eq_nil_iff]; omega
      by_cases hn : n = c.rest.length
      · rw [decide_eq_true (he.mpr hn), if_pos rfl, if_pos hn]
        simp only [RM.bind_run, RM.get_run, hI.debug _ _ b2']
        cases dbg && !labelsAgree evs <;> rfl
      · rw [decide_eq_false (fun hc => hn (he.mp hc)), if_neg hn]
        simp only [Bool.false_eq_true, if_false]
        obtain ⟨r3, b4, b5⟩ := errExpected_on hI (g := m.graph) (current := none) b2'
        simp only [RM.bind_run, b4, RM.lift_run, moved_location a2, moved_rest]
        rfl
    | fail e evs k => obtain ⟨a1, a2⟩ := ha; simp only at a1; subst a1; rfl
    | abort e => obtain ⟨a1, a2⟩ := ha; simp only at a1; subst a1; rfl
    | panic q => have : res = .panic q := ha; subst this; rfl

theorem parse_where (hI : LikeCursor dbg I At) {scan : SpecialScanner → Location → RM σ Reaction}
    {sem : SpecialScanner → Recognizer} {m : Machine} (hg : GraphBehavesOn dbg At scan sem m.graph)
    (hc : GraphBehaves dbg sem m.graph) (fuel : Nat) {r : σ} {c : Cursor} (h : At r c) :
    (∀ out, (Dyn.parse I scan m fuel r).1 = .ok out → ∃ more, At (Dyn.parse I scan m fuel r).2
      ⟨c.start, c.text, c.pos + c.rest.length, more ++ c.marks⟩) ∧
    (∀ e, (Dyn.parse I scan m fuel r).1 = .err e → ∃ pos more, At (Dyn.parse I scan m fuel r).2
      ⟨c.start, c.text, pos, more ++ c.marks⟩) := by
  have ha := sims_run hI hg hc fuel (some m.entry) r c h
  unfold Dyn.parse
  simp only [RM.bind_run]
  generalize runFrom I scan m.graph fuel (some m.entry) r = x at ha
  generalize prun sem m.graph fuel (some m.entry) c.location c.rest = o at ha
  obtain ⟨res, r1⟩ := x
  cases o with
  | none => have : res = .diverge := ha; subst this; simp
  | some o =>
    cases o with
    | ok evs n =>
      obtain ⟨a1, a2, own, a3⟩ := ha
      simp only at a1; subst a1
      obtain ⟨r2, b1, b2'⟩ := isEof_on hI a3
      simp only [RM.bind_run, b1, moved_rest]
      have he : c.rest.drop n = [] ↔ n = c.rest.length := by
        rw [List.drop_eq_nil_iff]; omega
      by_cases hn : n = c.rest.length
      · rw [decide_eq_true (he.mpr hn), if_pos rfl]
        simp only [RM.bind_run, RM.get_run]
        subst hn
        cases I.debug r2 && !labelsAgree evs with
        | true => simp
        | false => simp only [Bool.false_eq_true, if_false, RM.pure_run]; exact ⟨fun _ _ => ⟨own, b2'⟩, fun e h => by simp at h⟩
      · rw [decide_eq_false (fun hc => hn (he.mp hc))]
        simp only [Bool.false_eq_true, if_false]
        obtain ⟨r3, b4, b5⟩ := errExpected_on hI (g := m.graph) (current := none) b2'
        simp only [RM.bind_run, b4, RM.lift_run]
        exact ⟨fun _ h => by simp at h, fun _ _ => ⟨_, own, b5⟩⟩
    | fail e evs k =>
      obtain ⟨a1, a2, own, a3⟩ := ha
      simp only at a1; subst a1
      exact ⟨fun _ h => by simp at h, fun _ _ => ⟨_, own, a3⟩⟩
    | abort e =>
      obtain ⟨a1, p, own, a3⟩ := ha
      simp only at a1; subst a1
      exact ⟨fun _ h => by simp at h, fun _ _ => ⟨p, own, a3⟩⟩
    | panic q => have : res = .panic q := ha; subst this; simp

/-! ## The scanners of the library -/

theorem default_on : BehavesOn dbg At defaultScan defaultRecognizer := by
  intro d r c h _
  exact ⟨r, [], rfl, by simp, h, fun _ => .nil⟩

/-- The loop of `CharsScanner`. -/
theorem charsLoop_on (hI : LikeCursor dbg I At) (allowed : Char → Bool) (max : Option Nat) :
    ∀ (fuel count : Nat) (r : σ) (c : Cursor), At r c → c.rest.length < fuel →
      ∃ r' own, charsLoop I allowed max fuel count r = (.ok (greedyRun allowed (max.map (· - count)) c.rest), r') ∧
        At r' ⟨c.start, c.text, c.pos + (greedyRun allowed (max.map (· - count)) c.rest).length, own ++ c.marks⟩ := by
  intro fuel
  induction fuel with
  | zero => intro count r c _ h; omega
  | succ fuel ih =>
    intro count r c h hf
    unfold charsLoop
    by_cases hm : (max.map fun m => decide (count < m)).getD true = true
    · rw [if_pos hm]
      obtain ⟨m, r1, h1, h2⟩ := mark_on hI h
      obtain ⟨r2, h3, h4⟩ := read_on hI h2
      have e2 : (⟨c.start, c.text, c.pos, (m, c.pos) :: c.marks⟩ : Cursor).rest = c.rest := rfl
      rw [e2] at h3 h4
      simp only [RM.bind_run, h1, h3]
      cases hr : c.rest with
      | nil =>
        simp only [List.head?_nil, RM.pure_run]
        refine ⟨r2, [(m, c.pos)], ?_, ?_⟩
        · cases max <;> simp [greedyRun]
        · rw [hr] at h4
          have : (greedyRun allowed (max.map (· - count)) []).length = 0 := by cases max <;> simp [greedyRun]
          rw [this]
          exact h4
      | cons x xs =>
        have h4' : At r2 ⟨c.start, c.text, c.pos + 1, (m, c.pos) :: c.marks⟩ := by
          rw [hr] at h4
          simpa [Cursor.advance] using h4
        simp only [List.head?_cons]
        cases hx : allowed x with
        | false =>
          obtain ⟨k, r3, own, h6, h7⟩ := reset_on hI (own := []) h4'
          simp only [Bool.not_false, if_true, RM.bind_run, h6, RM.pure_run]
          have : greedyRun allowed (max.map (· - count)) (x :: xs) = [] := by cases max <;> simp [greedyRun, hx]
          rw [this]
          exact ⟨r3, own, rfl, h7⟩
        | true =>
          obtain ⟨r3, own, h6, h7⟩ := unmark_on hI (own := []) h4'
          simp only [Bool.not_true, Bool.false_eq_true, if_false, RM.bind_run, h6]
          have hrest : (⟨c.start, c.text, c.pos + 1, own ++ c.marks⟩ : Cursor).rest = xs := rest_cons hr
          obtain ⟨r4, own', h8, h9⟩ := ih (count + 1) r3 _ h7 (by rw [hrest]; simp [hr] at hf; omega)
          rw [hrest] at h8 h9
          have hg : greedyRun allowed (max.map (· - count)) (x :: xs) =
              x :: greedyRun allowed (max.map (· - (count + 1))) xs := by
            cases max with
            | none => simp [greedyRun, hx]
            | some k =>
              simp at hm
              have : k - count = (k - (count + 1)) + 1 := by omega
              simp only [Option.map_some, greedyRun, List.takeWhile_cons, hx, if_true]
              rw [this, List.take_succ_cons]
          rw [h8, hg]
          simp only [RM.pure_run]
          refine ⟨r4, own' ++ own, rfl, ?_⟩
          have : c.pos + (x :: greedyRun allowed (max.map (· - (count + 1))) xs).length =
              c.pos + 1 + (greedyRun allowed (max.map (· - (count + 1))) xs).length := by simp; omega
          rw [this]
          simpa using h9
    · rw [if_neg hm]
      refine ⟨r, [], ?_, ?_⟩
      · cases max with
        | none => simp at hm
        | some k =>
          simp at hm
          have : k - count = 0 := by omega
          simp [greedyRun, this]
      · cases max with
        | none => simp at hm
        | some k =>
          simp at hm
          have : k - count = 0 := by omega
          simp [greedyRun, this]; exact h

theorem chars_on (hI : LikeCursor dbg I At) (allowed : Char → Bool) (min max : Option Nat) :
    BehavesOn dbg At (charsScan I allowed min max) (charsRecognizer allowed min max) := by
  intro d r c h _
  obtain ⟨m, r1, h1, h2⟩ := mark_on hI h
  have hsz := hI.size _ _ h2
  obtain ⟨r2, own, h3, h4⟩ := charsLoop_on hI allowed max (I.size r1 + 1) 0 r1 _ h2 (by omega)
  have e1 : (⟨c.start, c.text, c.pos, (m, c.pos) :: c.marks⟩ : Cursor).location = c.location := rfl
  have e2 : (⟨c.start, c.text, c.pos, (m, c.pos) :: c.marks⟩ : Cursor).rest = c.rest := rfl
  have e3 : max.map (· - 0) = max := by cases max <;> simp
  rw [e2, e3] at h3 h4
  have hle : (greedyRun allowed max c.rest).length ≤ c.rest.length := by
    cases max with
    | none => exact (List.takeWhile_prefix _).length_le
    | some k => exact Nat.le_trans ((List.take_prefix _ _).length_le) (List.takeWhile_prefix _).length_le
  have hrun : charsScan I allowed min max d r = (do
      if (min.map fun m => decide ((greedyRun allowed max c.rest).length < m)).getD false then do
        let _ ← I.resetToMark m
        pure .unmatch
      else pure (.match [.token d c.location (greedyRun allowed max c.rest)]) : RM σ Reaction) r2 := by
    simp only [charsScan, RM.bind_run, h1, location_on hI h2, e1, RM.get_run, h3]
  unfold charsRecognizer
  by_cases hmin : ∃ m, min = some m ∧ (greedyRun allowed max c.rest).length < m
  · simp only [if_pos hmin]
    obtain ⟨k, hk1, hk2⟩ := hmin
    obtain ⟨k3, r3, own', h5, h6⟩ := reset_on hI h4
    rw [hrun, hk1]
    simp only [Option.map_some, Option.getD_some, hk2, decide_true, if_true, RM.bind_run, h5, RM.pure_run]
    exact ⟨r3, own', c.pos, rfl, h6⟩
  · simp only [if_neg hmin]
    have : (min.map fun m => decide ((greedyRun allowed max c.rest).length < m)).getD false = false := by
      cases min with
      | none => rfl
      | some k =>
        simp only [Option.map_some, Option.getD_some, decide_eq_false_iff_not]
        exact fun hc => hmin ⟨k, rfl, hc⟩
    rw [hrun, this]
    simp only [Bool.false_eq_true, if_false, RM.pure_run]
    refine ⟨r2, own ++ [(m, c.pos)], rfl, hle, ?_, fun _ => .token .nil⟩
    simpa [Cursor.advance] using h4

theorem regex_on (hI : LikeCursor dbg I At) (find : Str → Option (Nat × Nat)) :
    BehavesOn dbg At (regexScan I find) (regexRecognizer find) := by
  intro d r c h _
  obtain ⟨r1, h1, h2'⟩ := peek_on hI h 257
  simp only [regexRecognizer, regexScan, RM.bind_run, location_on hI h, h1]
  cases hf : find (c.rest.take 257) with
  | none => exact ⟨r1, [], c.pos, rfl, h2'⟩
  | some x =>
    obtain ⟨off, len⟩ := x
    cases off with
    | succ off => exact ⟨r1, [], c.pos, rfl, h2'⟩
    | zero =>
      simp only
      by_cases hl : ((c.rest.take 257).take len).length ≤ 256
      · rw [if_pos hl, if_neg (by omega)]
        obtain ⟨r2, h4, h5⟩ := skip_on hI h2' ((c.rest.take 257).take len).length
        simp only [RM.bind_run, h4, RM.pure_run]
        have ht : (c.rest.take 257).take len = c.rest.take len := by
          rw [List.take_take]
          simp only [List.length_take] at hl
          by_cases hlen : len ≤ 257
          · rw [Nat.min_eq_left hlen]
          · rw [Nat.min_eq_right (by omega), List.take_of_length_le (by omega), List.take_of_length_le (by omega)]
        have hn : min ((c.rest.take 257).take len).length c.rest.length = min len c.rest.length := by
          rw [ht, List.length_take]; omega
        rw [ht] at h5 hn ⊢
        rw [hn] at h5
        exact ⟨r2, [], rfl, by omega, h5, fun _ => .token .nil⟩
      · rw [if_neg hl, if_pos (by omega)]
        simp only [RM.bind_run, location_on hI h2', RM.lift_run]
        exact ⟨r1, [], c.pos, rfl, h2'⟩

/-! ## On a `MarkableReader` -/

/-- The methods of a `MarkableReader`. -/
abbrev own : Methods Reader :=
    { readChars := Reader.readChars, read := Reader.read, readAll := Reader.readAll, location := fun r => r.buffer.location,
      isEof := Reader.isEof, prefixMatches := Reader.prefixMatches, peek := Reader.peek, skip := Reader.skip,
      mark := Reader.mark, resetToMark := Reader.resetToMark, unmark := Reader.unmark, size := Reader.size,
      debug := fun r => r.buffer.dbg }

theorem location_same : Dyn.location own = Reader.location := rfl

theorem streamPrefix_same : streamPrefix own = Ebnf.streamPrefix := by
  unfold streamPrefix Ebnf.streamPrefix
  rfl

theorem errExpected_same (g : Graph) (current : Option Nat) : errExpected own g current = Ebnf.errExpected g current := by
  funext r
  unfold errExpected Ebnf.errExpected
  rw [streamPrefix_same]
  cases Ebnf.streamPrefix r with
  | mk x r' => cases x <;> rfl

theorem repetition_same (body : Run) (min max fuel : Nat) : repetitionLoop own body min max fuel = Ebnf.repetitionLoop body min max fuel := by
  induction fuel with
  | zero => rfl
  | succ fuel ih => funext i temp; unfold repetitionLoop Ebnf.repetitionLoop; rw [ih]; rfl

theorem or_same (run : Nat → Run) (subs : List Nat) : orLoop own run subs = Ebnf.orLoop run subs := by
  induction subs with
  | nil => rfl
  | cons x xs ih => funext es; unfold orLoop Ebnf.orLoop; rw [ih]; rfl

theorem capture_same (e : Location) (fuel : Nat) : captureLoop own e fuel = Ebnf.captureLoop e fuel := by
  induction fuel with
  | zero => rfl
  | succ fuel ih => unfold captureLoop Ebnf.captureLoop; rw [ih]; rfl

theorem step_same (g : Graph) (run : Nat → Run) (fuel addr : Nat) (instr : Instruction) :
    execStep own SpecialScanner.scan g run run fuel addr instr = Ebnf.execStep g run fuel addr instr := by
  unfold execStep Ebnf.execStep
  cases instr.step with
  | repetition min max sub => simp only; rw [repetition_same]
  | or subs => simp only; rw [or_same]; simp only [errExpected_same, location_same]; rfl
  | alias name => rfl
  | scan sc =>
    cases sc with
    | terminal s => simp only [scanTerminal, Ebnf.scanTerminal, errExpected_same, location_same]
    | special scanner =>
      simp only [scanSpecial, Ebnf.scanSpecial, errExpected_same, location_same]
      rfl
    | empty => rfl
    | exception f x =>
      simp only [scanException, Ebnf.scanException, errExpected_same, location_same, capture_same]
      rfl

theorem run_same (g : Graph) (fuel : Nat) : ∀ next, runFrom own SpecialScanner.scan g fuel next = Ebnf.runFrom g fuel next := by
  induction fuel with
  | zero => intro next; rfl
  | succ fuel ih =>
    intro next
    cases next with
    | none => rfl
    | some addr =>
      rw [runFrom, Ebnf.runFrom]
      cases g.instruction addr with
      | none => rfl
      | some instr =>
        simp only [ih]
        rw [step_same]
        rfl

theorem parse_same (m : Machine) (fuel : Nat) : Dyn.parse own SpecialScanner.scan m fuel = m.parse fuel := by
  unfold Dyn.parse Machine.parse
  rw [run_same]
  simp only [errExpected_same]
  rfl

end Ebnf.Dyn
