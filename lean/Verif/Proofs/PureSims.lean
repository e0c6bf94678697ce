import Verif.Proofs.Pure

set_option autoImplicit false

/-! # The machine agrees with the pure machine -/

namespace Ebnf

open Spec

variable {dbg : Bool}

/-- The continuation of an agreeing run. -/
theorem agrees_shift {c : Cursor} {n : Nat} {own ms : List (Nat × Nat)} {x : Res (Prospect × List Event) × Reader}
    {o : Option Outcome} (hn : n ≤ c.rest.length)
    (h : Agrees dbg ⟨c.start, c.text, c.pos + n, own ++ ms⟩ x o) :
    AgreesM dbg c ms x (o.map fun
      | .ok evs m => .ok evs (n + m)
      | .fail e evs m => .fail e evs (n + m)
      | o => o) := by
  cases o with
  | none => exact h
  | some o =>
    cases o with
    | ok evs m =>
      obtain ⟨h1, h2, own', h3⟩ := h
      rw [moved_rest, List.length_drop] at h2
      exact ⟨h1, by omega, own' ++ own, by simpa [Nat.add_assoc] using h3⟩
    | fail e evs m =>
      obtain ⟨h1, h2, own', h3⟩ := h
      rw [moved_rest, List.length_drop] at h2
      exact ⟨h1, by omega, own' ++ own, by simpa [Nat.add_assoc] using h3⟩
    | abort e =>
      obtain ⟨h1, p, own', h3⟩ := h
      exact ⟨h1, p, own' ++ own, by simpa using h3⟩
    | panic p => exact h

/-- Marks on top are own marks. -/
theorem agreesM_drop {c : Cursor} {x : Res (Prospect × List Event) × Reader} {o : Option Outcome}
    {top ms : List (Nat × Nat)} (h : AgreesM dbg c (top ++ ms) x o) : AgreesM dbg c ms x o := by
  cases o with
  | none => exact h
  | some o =>
    cases o with
    | ok evs m =>
      obtain ⟨h1, h2, own', h3⟩ := h
      exact ⟨h1, h2, own' ++ top, by simpa using h3⟩
    | fail e evs m =>
      obtain ⟨h1, h2, own', h3⟩ := h
      exact ⟨h1, h2, own' ++ top, by simpa using h3⟩
    | abort e =>
      obtain ⟨h1, p, own', h3⟩ := h
      exact ⟨h1, p, own' ++ top, by simpa using h3⟩
    | panic p => exact h

theorem take_eq_nil_iff' {s : Str} {n : Nat} (h : n ≤ s.length) : s.take n = [] ↔ n = 0 := by
  constructor
  · intro h1
    have := congrArg List.length h1
    rw [List.length_take, Nat.min_eq_left h] at this
    exact this
  · rintro rfl; rfl

/-! ## Repetitions -/

theorem sims_loop {body : Run} {pbody : PRun} (hb : Sims dbg body pbody) (min max fuel : Nat) :
    ∀ (i : Nat) (temp : List Event) (r : Reader) (c : Cursor), Stands dbg r c →
      Agrees dbg c (repetitionLoop body min max fuel i temp r)
        ((ploop pbody min max fuel i c.location c.rest).map (withEvents temp)) := by
  induction fuel with
  | zero => intro i temp r c h; rfl
  | succ fuel ih =>
    intro i temp r c h
    unfold repetitionLoop ploop
    by_cases hi : i < max
    · rw [if_pos hi, if_pos hi]
      obtain ⟨m, r1, h1, h2, hx⟩ := mark_run hb h
      simp only [RM.bind_run, location_at h, h1]
      generalize body r1 = x at hx
      generalize hpo : pbody c.location c.rest = o at hx
      obtain ⟨res, r2⟩ := x
      cases o with
      | none => simp only [AgreesM] at hx; subst hx; rfl
      | some o =>
        cases o with
        | ok evs n =>
          obtain ⟨hx1, hx2, own, hx3⟩ := hx
          simp only at hx1; subst hx1
          simp only [RM.bind_run, location_at hx3, moved_location hx2]
          by_cases hl : max = u32Max ∧ n = 0
          · rw [if_pos hl, if_pos ⟨hl.1, by rw [lineColumn_self_iff, take_eq_nil_iff' hx2]; exact hl.2⟩]
            exact ⟨rfl, _, own ++ [(m, c.pos)], by simpa using hx3⟩
          · rw [if_neg hl, if_neg (by rw [lineColumn_self_iff, take_eq_nil_iff' hx2]; exact hl)]
            have := agreesM_drop (top := [(m, c.pos)]) (agrees_shift hx2 (ih (i + 1) (temp ++ evs) r2 _ hx3))
            rw [moved_location hx2, moved_rest] at this
            revert this
            generalize ploop pbody min max fuel (i + 1) (lineColumn c.location (c.rest.take n)) (c.rest.drop n) = o
            intro this
            cases o with
            | none => exact this
            | some o => cases o <;> simpa [withEvents, Outcome.afterRound] using this
        | fail e evs n =>
          obtain ⟨hx1, hx2, own, hx3⟩ := hx
          simp only at hx1; subst hx1
          simp only
          by_cases hm : i < min
          · rw [if_pos hm, if_pos hm]
            exact ⟨rfl, hx2, own ++ [(m, c.pos)], by simpa using hx3⟩
          · rw [if_neg hm, if_neg hm]
            obtain ⟨k, r3, own', h3, h4⟩ := reset_back hx3
            simp only [RM.bind_run, h3, RM.pure_run]
            exact ⟨rfl, by simp, own', h4⟩
        | abort e =>
          obtain ⟨hx1, p, own, hx3⟩ := hx
          simp only at hx1; subst hx1
          exact ⟨rfl, p, own ++ [(m, c.pos)], by simpa using hx3⟩
        | panic p => simp only [AgreesM] at hx; subst hx; rfl
    · rw [if_neg hi, if_neg hi]
      exact ⟨by simp, by simp, [], by simpa using h⟩

/-! ## Alternatives -/

theorem pickError_concat (err : Error) (others : List Error) (e : Error) :
    pickError err (others ++ [e]) = laterError e (pickError err others) := by
  induction others generalizing err with
  | nil => simp only [List.nil_append, pickError]; rfl
  | cons x xs ih => simp only [List.cons_append, pickError, ih]

theorem sims_or {run : Nat → Run} {p : Nat → PRun} (hs : ∀ a, Sims dbg (run a) (p a)) (subs : List Nat) :
    ∀ (errors : List Error) (r : Reader) (c : Cursor), Stands dbg r c → subs ≠ [] →
      match por p subs c.location c.rest with
      | none => (orLoop run subs errors r).1 = .diverge
      | some (.ok evs n) => (orLoop run subs errors r).1 = .ok (.ok evs) ∧ n ≤ c.rest.length ∧
          ∃ own, Stands dbg (orLoop run subs errors r).2 ⟨c.start, c.text, c.pos + n, own ++ c.marks⟩
      | some (.fail e evs n) => ∃ es last others, (orLoop run subs errors r).1 = .ok (.error (errors ++ es)) ∧
          es.reverse = last :: others ∧ pickError last others = e ∧ evs = [] ∧ n = 0 ∧
          ∃ own, Stands dbg (orLoop run subs errors r).2 ⟨c.start, c.text, c.pos, own ++ c.marks⟩
      | some (.abort e) => (orLoop run subs errors r).1 = .err e ∧
          ∃ p own, Stands dbg (orLoop run subs errors r).2 ⟨c.start, c.text, p, own ++ c.marks⟩
      | some (.panic p) => (orLoop run subs errors r).1 = .panic p := by
  induction subs with
  | nil => intro errors r c h hne; exact absurd rfl hne
  | cons a l ih =>
    intro errors r c h _
    obtain ⟨m, r1, h1, h2, hx⟩ := mark_run (hs a) h
    have hloop : orLoop run (a :: l) errors r =
        (match run a r1 with
        | (.ok (.proceed, evs), r2) => (.ok (.ok evs), r2)
        | (.ok (.notThisWay e, _), r2) =>
          (match Reader.resetToMark m r2 with
          | (.ok _, r3) => orLoop run l (errors ++ [e]) r3
          | (.err e, r3) => (.err e, r3)
          | (.panic p, r3) => (.panic p, r3)
          | (.diverge, r3) => (.diverge, r3))
        | (.err e, r2) => (.err e, r2)
        | (.panic p, r2) => (.panic p, r2)
        | (.diverge, r2) => (.diverge, r2)) := by
      conv => lhs; unfold orLoop
      simp only [RM.bind_run, h1]
      generalize run a r1 = x
      obtain ⟨res, r2⟩ := x
      cases res with
      | ok pe =>
        obtain ⟨pr, evs⟩ := pe
        cases pr with
        | proceed => rfl
        | notThisWay e =>
          simp only [RM.bind_run]
          generalize Reader.resetToMark m r2 = y
          obtain ⟨resy, r3⟩ := y
          cases resy <;> rfl
      | err e => rfl
      | panic q => rfl
      | diverge => rfl
    rw [hloop]
    generalize run a r1 = x at hx
    obtain ⟨res, r2⟩ := x
    have hpor : por p (a :: l) c.location c.rest =
        (match p a c.location c.rest with
        | some (.fail e _ _) =>
          (match l with
          | [] => some (.fail e [] 0)
          | b :: l' =>
            match por p (b :: l') c.location c.rest with
            | some (.fail e' _ _) => some (.fail (laterError e e') [] 0)
            | o => o)
        | o => o) := by
      cases l <;> rfl
    rw [hpor]
    generalize p a c.location c.rest = o at hx
    cases o with
    | none => simp only [AgreesM] at hx; subst hx; rfl
    | some o =>
      cases o with
      | ok evs n =>
        obtain ⟨hx1, hx2, own, hx3⟩ := hx
        simp only at hx1; subst hx1
        exact ⟨rfl, hx2, own ++ [(m, c.pos)], by simpa using hx3⟩
      | abort e =>
        obtain ⟨hx1, p, own, hx3⟩ := hx
        simp only at hx1; subst hx1
        exact ⟨rfl, p, own ++ [(m, c.pos)], by simpa using hx3⟩
      | panic q => simp only [AgreesM] at hx; subst hx; rfl
      | fail e evs n =>
        obtain ⟨hx1, hx2, own, hx3⟩ := hx
        simp only at hx1; subst hx1
        simp only
        obtain ⟨k, r3, own', h3, h4⟩ := reset_back hx3
        simp only [h3]
        cases l with
        | nil => exact ⟨[e], e, [], rfl, rfl, rfl, rfl, rfl, own', h4⟩
        | cons b l' =>
          have hi := ih (errors ++ [e]) r3 _ h4 (by simp)
          simp only at hi ⊢
          have e1 : (⟨c.start, c.text, c.pos, own' ++ c.marks⟩ : Cursor).location = c.location := rfl
          have e2 : (⟨c.start, c.text, c.pos, own' ++ c.marks⟩ : Cursor).rest = c.rest := rfl
          rw [e1, e2] at hi
          generalize por p (b :: l') c.location c.rest = o at hi
          cases o with
          | none => exact hi
          | some o =>
            cases o with
            | ok evs' n' =>
              obtain ⟨i1, i2, own2, i3⟩ := hi
              exact ⟨i1, i2, own2 ++ own', by simpa using i3⟩
            | fail e' evs' n' =>
              obtain ⟨es, last, others, i1, i2, i3, i4, i5, own2, i6⟩ := hi
              refine ⟨e :: es, last, others ++ [e], by simpa using i1, by simp [i2], ?_, rfl, rfl, own2 ++ own', by simpa using i6⟩
              rw [pickError_concat, i3]
            | abort e' =>
              obtain ⟨i1, p, own2, i3⟩ := hi
              exact ⟨i1, p, own2 ++ own', by simpa using i3⟩
            | panic q => exact hi

/-! ## Exceptions -/

theorem capture_at (n : Nat) : ∀ (fuel : Nat) (r : Reader) (c : Cursor), Stands dbg r c → c.marks ≠ [] → n ≤ c.rest.length →
    n < fuel → ∃ r', captureLoop (lineColumn c.location (c.rest.take n)) fuel r = (.ok (c.rest.take n), r') ∧
      Stands dbg r' ⟨c.start, c.text, c.pos + n, c.marks⟩ := by
  induction n with
  | zero =>
    intro fuel r c h hms hn hf
    obtain ⟨fuel, rfl⟩ : ∃ k, fuel = k + 1 := ⟨fuel - 1, by omega⟩
    unfold captureLoop
    simp only [RM.bind_run, location_at h, List.take_zero, lineColumn_nil]
    rw [if_neg (by omega)]
    exact ⟨r, rfl, h⟩
  | succ n ih =>
    intro fuel r c h hms hn hf
    obtain ⟨fuel, rfl⟩ : ∃ k, fuel = k + 1 := ⟨fuel - 1, by omega⟩
    obtain ⟨x, xs, hr⟩ : ∃ x xs, c.rest = x :: xs := by
      cases hc : c.rest with
      | nil => rw [hc] at hn; simp at hn
      | cons x xs => exact ⟨x, xs, rfl⟩
    have hcond : c.location.lines < (lineColumn c.location (c.rest.take (n + 1))).lines ∨
        c.location.columns < (lineColumn c.location (c.rest.take (n + 1))).columns := by
      have := Location.pushStr_progress c.location (c.rest.take (n + 1)) (by rw [hr]; simp)
      rw [Location.pushStr_eq_lineColumn] at this
      omega
    unfold captureLoop
    simp only [RM.bind_run, location_at h]
    rw [if_pos hcond]
    obtain ⟨r1, h1, h2⟩ := read_at h hms
    have hlen : c.rest.length = xs.length + 1 := by rw [hr]; rfl
    rw [Nat.min_eq_left (by omega)] at h2
    have hx : (c.advance 1).rest = xs := rest_cons hr
    have hl : lineColumn (c.advance 1).location ((c.advance 1).rest.take n) =
        lineColumn c.location (c.rest.take (n + 1)) := by
      rw [loc_advance (by omega), lineColumn_append, hx, hr]
      simp
    obtain ⟨r2, h4, h5⟩ := ih fuel r1 (c.advance 1) h2 hms (by rw [hx]; omega) (by omega)
    rw [hl] at h4
    simp only [RM.bind_run, h1, hr, List.head?_cons, RM.pure_run]
    rw [hr] at h4
    simp only [h4]
    refine ⟨r2, ?_, ?_⟩
    · rw [hx]; rfl
    · have : c.pos + (n + 1) = c.pos + 1 + n := by omega
      rw [this]; exact h5

theorem sims_exception {g : Graph} {addr : Nat} {runF runX : Run} {pF pX : PRun} (hf : Sims dbg runF pF) (hx : Sims dbg runX pX) :
    Sims dbg (scanException g addr runF runX) (fun here rest =>
      match pF here rest with
      | some (.ok evs n) =>
        match pX here (rest.take n) with
        | some (.ok _ m) =>
          if m = n then some (.fail (expectedAt (symbolAt g (some addr)) here rest) [] 0) else some (.ok evs n)
        | some (.fail _ _ _) => some (.ok evs n)
        | o => o
      | some (.fail e _ _) => some (.fail e [] 0)
      | o => o) := by
  intro r c h
  obtain ⟨m, r1, h1, h2, ha⟩ := mark_run hf h
  unfold scanException
  simp only [RM.bind_run, location_at h, h1]
  generalize runF r1 = x at ha
  generalize pF c.location c.rest = o at ha
  obtain ⟨res, r2⟩ := x
  cases o with
  | none => simp only [AgreesM] at ha; subst ha; rfl
  | some o =>
    cases o with
    | abort e =>
      obtain ⟨ha1, p, own, ha3⟩ := ha
      simp only at ha1; subst ha1
      exact ⟨rfl, p, own ++ [(m, c.pos)], by simpa using ha3⟩
    | panic q => simp only [AgreesM] at ha; subst ha; rfl
    | fail e evs n =>
      obtain ⟨ha1, ha2, own, ha3⟩ := ha
      simp only at ha1; subst ha1
      obtain ⟨k, r3, own', h3, h4⟩ := reset_back ha3
      simp only [RM.bind_run, h3, RM.pure_run]
      exact ⟨rfl, by simp, own', h4⟩
    | ok evs n =>
      obtain ⟨ha1, ha2, own, ha3⟩ := ha
      simp only at ha1; subst ha1
      obtain ⟨k, r3, own', h3, h4⟩ := reset_back ha3
      obtain ⟨m', r4, h5, h6⟩ := mark_at h4
      have hsz := size_at h6.1
      have hrest : (⟨c.start, c.text, c.pos, (m', c.pos) :: (own' ++ c.marks)⟩ : Cursor).rest = c.rest := rfl
      have hloc : (⟨c.start, c.text, c.pos, (m', c.pos) :: (own' ++ c.marks)⟩ : Cursor).location = c.location := rfl
      simp only at hsz
      rw [hrest] at hsz
      obtain ⟨r5, h7, h8⟩ := capture_at n (r4.size + 1) r4 _ h6 (by simp) ha2 (by omega)
      simp only [hrest, hloc] at h7
      simp only [RM.bind_run, location_at ha3, moved_location ha2, h3, h5, RM.get_run, h7, location_at h8]
      rw [if_neg (by rw [h6.2]; simp), h6.2]
      have hrep : Stands dbg (Reader.withLocation c.location (.buffered (c.rest.take n)) dbg)
          ⟨c.location, c.rest.take n, 0, []⟩ :=
        ⟨(new_rep ⟨[], rfl, by simp [Source.buffered]⟩ dbg).toRep, rfl⟩
      have hxx := hx _ _ hrep
      have hr0 : (⟨c.location, c.rest.take n, 0, []⟩ : Cursor).rest = c.rest.take n := rfl
      have hl0 : (⟨c.location, c.rest.take n, 0, []⟩ : Cursor).location = c.location := by
        simp [Cursor.location, lineColumn_nil]
      rw [hr0, hl0] at hxx
      simp only [RM.bind_run, RM.lift_run]
      generalize runX (Reader.withLocation c.location (Source.buffered (c.rest.take n)) dbg) = y at hxx
      generalize pX c.location (c.rest.take n) = oy at hxx
      obtain ⟨resy, ry⟩ := y
      have hlen : (c.rest.take n).length = n := by rw [List.length_take]; omega
      cases oy with
      | none => simp only [AgreesM] at hxx; subst hxx; rfl
      | some oy =>
        cases oy with
        | abort e =>
          obtain ⟨hb1, _⟩ := hxx
          simp only at hb1; subst hb1
          exact ⟨rfl, _, (m', c.pos) :: own', h8⟩
        | panic q => simp only [AgreesM] at hxx; subst hxx; rfl
        | fail e evs' k' =>
          obtain ⟨hb1, hb2, ownb, hb3⟩ := hxx
          simp only at hb1; subst hb1
          simp only [RM.pure_run, Bool.false_eq_true, if_false]
          exact ⟨rfl, ha2, (m', c.pos) :: own', h8⟩
        | ok evs' k' =>
          obtain ⟨hb1, hb2, ownb, hb3⟩ := hxx
          simp only at hb1; subst hb1
          obtain ⟨r6, h9, h10⟩ := isEof_at hb3
          simp only [h9]
          rw [hr0] at hb2
          have hke : (⟨c.location, c.rest.take n, 0 + k', ownb ++ []⟩ : Cursor).rest = [] ↔ k' = n := by
            rw [Cursor.rest]
            simp only [List.drop_eq_nil_iff]
            omega
          by_cases hk : k' = n
          · rw [decide_eq_true (hke.mpr hk), if_pos rfl]
            obtain ⟨k2, r7, own3, h11, h12⟩ := reset_back (own := []) h8
            obtain ⟨r8, h13, h14⟩ := errExpected_at (g := g) (current := some addr) h12
            simp only [RM.bind_run, h11, h13, RM.pure_run]
            rw [if_pos hk]
            exact ⟨rfl, by simp, own3 ++ own', by simpa using h14⟩
          · rw [decide_eq_false (fun hc => hk (hke.mp hc))]
            simp only [Bool.false_eq_true, if_false, RM.pure_run]
            rw [if_neg hk]
            exact ⟨rfl, ha2, (m', c.pos) :: own', h8⟩

/-! ## Scanners -/

theorem sims_terminal {g : Graph} {addr : Nat} {instr : Instruction} {s : Str} :
    Sims dbg (scanTerminal g addr instr s) (fun here rest =>
      if s <+: rest then some (.ok [.token instr.definition here s] s.length)
      else some (.fail (expectedAt (symbolAt g (some addr)) here rest) [] 0)) := by
  intro r c h
  obtain ⟨r1, h1, h2, h3⟩ := prefixMatches_at h s
  unfold scanTerminal
  simp only [RM.bind_run, h1]
  by_cases hp : s <+: c.rest
  · rw [decide_eq_true hp, if_pos rfl, if_pos hp]
    obtain ⟨r2, h4, h5⟩ := skip_at h2 (h3 hp)
    rw [Nat.min_eq_left hp.length_le] at h5
    simp only [RM.bind_run, location_at h2, h4, RM.pure_run]
    exact ⟨rfl, hp.length_le, [], h5⟩
  · rw [decide_eq_false hp, if_neg hp]
    simp only [Bool.false_eq_true, if_false]
    obtain ⟨r2, h4, h5⟩ := errExpected_at (g := g) (current := some addr) h2
    simp only [RM.bind_run, h4, RM.pure_run]
    exact ⟨rfl, by simp, [], h5⟩

theorem sims_special {g : Graph} {addr : Nat} {instr : Instruction} {scanner : SpecialScanner} {f : Recognizer}
    (hb : Behaves dbg scanner f) {run : Nat → Run} {p : Nat → PRun} (hs : ∀ a, Sims dbg (run a) (p a)) :
    Sims dbg (scanSpecial g addr instr scanner run) (fun here rest =>
      match f instr.definition here rest with
      | .accept evs n => some (.ok evs n)
      | .unmatched => some (.fail (expectedAt (symbolAt g (some addr)) here rest) [] 0)
      | .error e => some (.abort e)
      | .forward name n =>
        match g.indexOfLabel name with
        | none => some (.abort ⟨here, .forwardUndefined name instr.symbol instr.definition⟩)
        | some address =>
          match p address (lineColumn here (rest.take n)) (rest.drop n) with
          | some (.ok evs m) => some (.ok evs (n + m))
          | some (.fail _ evs m) => some (.ok evs (n + m))
          | o => o) := by
  intro r c h
  obtain ⟨m, r1, h1, h2⟩ := mark_at h
  have hb' := hb instr.definition r1 _ h2.1 h2.2 (by simp)
  have e1 : (⟨c.start, c.text, c.pos, (m, c.pos) :: c.marks⟩ : Cursor).location = c.location := rfl
  have e2 : (⟨c.start, c.text, c.pos, (m, c.pos) :: c.marks⟩ : Cursor).rest = c.rest := rfl
  rw [e1, e2] at hb'
  unfold scanSpecial
  simp only [RM.bind_run, h1]
  generalize f instr.definition c.location c.rest = o at hb'
  cases o with
  | accept evs n =>
    obtain ⟨r2, own, h3, h4, h5, h6, _⟩ := hb'
    obtain ⟨r3, own', h7, h8⟩ := unmark_back (r := r2) (start := c.start) (text := c.text) (pos := c.pos + n) (own := own)
      (m := m) (p := c.pos) (ms := c.marks) ⟨h5, h6⟩
    simp only [h3, RM.bind_run, h7, RM.pure_run]
    exact ⟨rfl, h4, own', h8⟩
  | unmatched =>
    obtain ⟨r2, own, pp, h3, h5, h6⟩ := hb'
    obtain ⟨k, r3, own', h7, h8⟩ := reset_back (r := r2) (start := c.start) (text := c.text) (pos := pp) (own := own)
      (m := m) (p := c.pos) (ms := c.marks) ⟨h5, h6⟩
    obtain ⟨r4, h9, h10⟩ := errExpected_at (g := g) (current := some addr) h8
    simp only [h3, RM.bind_run, h7, h9, RM.pure_run]
    exact ⟨rfl, by simp, own', h10⟩
  | error e =>
    obtain ⟨r2, own, p, h3, h4, h5⟩ := hb'
    simp only [h3]
    exact ⟨rfl, p, own ++ [(m, c.pos)], by simpa using h4, h5⟩
  | forward name n =>
    obtain ⟨r2, own, h3, h4, h5, h6⟩ := hb'
    have h56 : Stands dbg r2 ⟨c.start, c.text, c.pos + n, own ++ (m, c.pos) :: c.marks⟩ := ⟨h5, h6⟩
    simp only [h3]
    cases hl : g.indexOfLabel name with
    | none =>
      obtain ⟨k, r3, own', h7, h8⟩ := reset_back h56
      simp only [RM.bind_run, h7, location_at h8, RM.lift_run]
      exact ⟨rfl, _, own', h8⟩
    | some address =>
      obtain ⟨r3, own', h7, h8⟩ := unmark_back h56
      have ha := agrees_shift h4 (hs address r3 _ h8)
      have hnn : n ≤ c.rest.length := h4
      rw [moved_location hnn, moved_rest] at ha
      simp only [RM.bind_run, h7]
      generalize run address r3 = x at ha
      generalize p address (lineColumn c.location (c.rest.take n)) (c.rest.drop n) = o at ha
      obtain ⟨res, r4⟩ := x
      cases o with
      | none => have : res = .diverge := ha; subst this; rfl
      | some o =>
        cases o with
        | ok evs k => obtain ⟨a1, a2⟩ := ha; simp only at a1; subst a1; exact ⟨rfl, a2⟩
        | fail e evs k => obtain ⟨a1, a2⟩ := ha; simp only at a1; subst a1; exact ⟨rfl, a2⟩
        | abort e => obtain ⟨a1, a2⟩ := ha; simp only at a1; subst a1; exact ⟨rfl, a2⟩
        | panic q => have : res = .panic q := ha; subst this; rfl

/-! ## Instructions -/

/-- Every scanner of the graph computes its meaning. -/
def GraphBehaves (dbg : Bool) (sem : SpecialScanner → Recognizer) (g : Graph) : Prop :=
  ∀ addr instr scanner, g.instruction addr = some instr → instr.step = .scan (.special scanner) →
    Behaves dbg scanner (sem scanner)

theorem sims_step {sem : SpecialScanner → Recognizer} {g : Graph} (hg : GraphBehaves dbg sem g) {run : Nat → Run}
    {p : Nat → PRun} (hs : ∀ a, Sims dbg (run a) (p a)) (fuel addr : Nat) (instr : Instruction)
    (hi : g.instruction addr = some instr) :
    Sims dbg (execStep g run fuel addr instr) (pexec sem g p fuel addr instr) := by
  intro r c h
  unfold execStep pexec
  cases hst : instr.step with
  | repetition min max sub =>
    have := sims_loop (hs sub) min max fuel 0 [] r c h
    simp only
    revert this
    generalize ploop (p sub) min max fuel 0 c.location c.rest = o
    intro this
    cases o with
    | none => exact this
    | some o => cases o <;> simpa [withEvents] using this
  | or subs =>
    simp only [RM.bind_run]
    by_cases hne : subs = []
    · subst hne
      simp only [orLoop, por, RM.pure_run, List.reverse_nil, RM.lift_run]
      rfl
    · have ho := sims_or hs subs [] r c h hne
      generalize orLoop run subs [] r = x at ho
      generalize por p subs c.location c.rest = o at ho
      obtain ⟨res, r1⟩ := x
      cases o with
      | none => simp only at ho; subst ho; rfl
      | some o =>
        cases o with
        | ok evs n => obtain ⟨a1, a2⟩ := ho; simp only at a1; subst a1; exact ⟨rfl, a2⟩
        | abort e => obtain ⟨a1, a2⟩ := ho; simp only at a1; subst a1; exact ⟨rfl, a2⟩
        | panic q => simp only at ho; subst ho; rfl
        | fail e evs n =>
          obtain ⟨es, last, others, a1, a2, a3, _, _, own, a6⟩ := ho
          simp only [List.nil_append] at a1; subst a1
          simp only [a2, a3, RM.bind_run, location_at a6]
          have e1 : (⟨c.start, c.text, c.pos, own ++ c.marks⟩ : Cursor).location = c.location := rfl
          rw [e1]
          by_cases hc : e.location = c.location
          · rw [if_pos hc, if_pos hc]
            obtain ⟨r2, b1, b2⟩ := errExpected_at (g := g) (current := some addr) a6
            simp only [RM.bind_run, b1, RM.pure_run]
            exact ⟨rfl, by simp, own, b2⟩
          · rw [if_neg hc, if_neg hc]
            exact ⟨rfl, by simp, own, a6⟩
  | alias name =>
    simp only
    cases g.indexOfLabel name with
    | none => rfl
    | some address =>
      simp only
      cases g.canonicalName name with
      | none => rfl
      | some label =>
        simp only [RM.bind_run, location_at h]
        have ha := hs address r c h
        generalize run address r = x at ha
        generalize p address c.location c.rest = o at ha
        obtain ⟨res, r1⟩ := x
        cases o with
        | none => have : res = .diverge := ha; subst this; rfl
        | some o =>
          cases o with
          | ok evs k =>
            obtain ⟨a1, a2, own, a3⟩ := ha
            simp only at a1; subst a1
            simp only [RM.bind_run, location_at a3, RM.pure_run, moved_location a2]
            exact ⟨rfl, a2, own, a3⟩
          | fail e evs k => obtain ⟨a1, a2⟩ := ha; simp only at a1; subst a1; exact ⟨rfl, a2⟩
          | abort e => obtain ⟨a1, a2⟩ := ha; simp only at a1; subst a1; exact ⟨rfl, a2⟩
          | panic q => have : res = .panic q := ha; subst this; rfl
  | scan sc =>
    cases sc with
    | terminal s => exact sims_terminal r c h
    | special scanner => exact sims_special (hg addr instr scanner hi hst) hs r c h
    | empty => exact ⟨rfl, by simp, [], h⟩
    | exception f x => exact sims_exception (hs f) (hs x) r c h

/-- The machine on a reader is the pure machine. -/
theorem sims_run {sem : SpecialScanner → Recognizer} {g : Graph} (hg : GraphBehaves dbg sem g) (fuel : Nat) :
    ∀ next, Sims dbg (runFrom g fuel next) (prun sem g fuel next) := by
  induction fuel with
  | zero => intro next r c h; rfl
  | succ fuel ih =>
    intro next r c h
    cases next with
    | none => exact ⟨rfl, by simp, [], h⟩
    | some addr =>
      unfold runFrom prun
      cases hi : g.instruction addr with
      | none => rfl
      | some instr =>
        simp only [RM.bind_run]
        have ha := sims_step hg (fun a => ih (some a)) fuel addr instr hi r c h
        generalize execStep g (fun a => runFrom g fuel (some a)) fuel addr instr r = x at ha
        generalize pexec sem g (fun a => prun sem g fuel (some a)) fuel addr instr c.location c.rest = o at ha
        obtain ⟨res, r1⟩ := x
        cases o with
        | none => have : res = .diverge := ha; subst this; rfl
        | some o =>
          cases o with
          | ok evs n =>
            obtain ⟨a1, a2, own, a3⟩ := ha
            simp only at a1; subst a1
            have hb := agrees_shift a2 (ih instr.next r1 _ a3)
            rw [moved_location a2, moved_rest] at hb
            simp only [RM.bind_run]
            generalize runFrom g fuel instr.next r1 = y at hb
            generalize prun sem g fuel instr.next (lineColumn c.location (c.rest.take n)) (c.rest.drop n) = o at hb
            obtain ⟨resy, r2⟩ := y
            cases o with
            | none => have : resy = .diverge := hb; subst this; rfl
            | some o =>
              cases o with
              | ok evs' k => obtain ⟨b1, b2⟩ := hb; simp only at b1; subst b1; exact ⟨rfl, b2⟩
              | fail e evs' k => obtain ⟨b1, b2⟩ := hb; simp only at b1; subst b1; exact ⟨rfl, b2⟩
              | abort e => obtain ⟨b1, b2⟩ := hb; simp only at b1; subst b1; exact ⟨rfl, b2⟩
              | panic q => have : resy = .panic q := hb; subst this; rfl
          | fail e evs k => obtain ⟨a1, a2⟩ := ha; simp only at a1; subst a1; exact ⟨rfl, a2⟩
          | abort e => obtain ⟨a1, a2⟩ := ha; simp only at a1; subst a1; exact ⟨rfl, a2⟩
          | panic q => have : res = .panic q := ha; subst this; rfl

/-- `Machine.parse` without reader. -/
def pparse (dbg : Bool) (sem : SpecialScanner → Recognizer) (m : Machine) (fuel : Nat) (here : Location) (rest : Str) :
    Res (List Event) :=
  match prun sem m.graph fuel (some m.entry) here rest with
  | none => .diverge
  | some (.ok evs n) =>
    if n = rest.length then if dbg && !labelsAgree evs then .panic .debugAssert else .ok (removeEmpty evs)
    else .err (expectedAt "EOF".toList (lineColumn here (rest.take n)) (rest.drop n))
  | some (.fail e _ _) => .err e
  | some (.abort e) => .err e
  | some (.panic p) => .panic p

theorem parse_pure {sem : SpecialScanner → Recognizer} {m : Machine} (hg : GraphBehaves dbg sem m.graph) (fuel : Nat)
    {r : Reader} {c : Cursor} (h : Stands dbg r c) :
    (m.parse fuel r).1 = pparse dbg sem m fuel c.location c.rest := by
  have ha := sims_run hg fuel (some m.entry) r c h
  unfold Machine.parse pparse
  simp only [RM.bind_run]
  generalize runFrom m.graph fuel (some m.entry) r = x at ha
  generalize prun sem m.graph fuel (some m.entry) c.location c.rest = o at ha
  obtain ⟨res, r1⟩ := x
  cases o with
  | none => have : res = .diverge := ha; subst this; rfl
  | some o =>
    cases o with
    | ok evs n =>
      obtain ⟨a1, a2, own, a3⟩ := ha
      simp only at a1; subst a1
      obtain ⟨r2, b1, b2'⟩ := isEof_at a3
      simp only [RM.bind_run, b1, moved_rest]
      have he : c.rest.drop n = [] ↔ n = c.rest.length := by
        rw [List.drop_eq_nil_iff]; omega
      by_cases hn : n = c.rest.length
      · rw [decide_eq_true (he.mpr hn), if_pos rfl, if_pos hn]
        simp only [RM.bind_run, RM.get_run, b2'.2]
        cases dbg && !labelsAgree evs <;> rfl
      · rw [decide_eq_false (fun hc => hn (he.mp hc)), if_neg hn]
        simp only [Bool.false_eq_true, if_false]
        obtain ⟨r3, b4, b5⟩ := errExpected_at (g := m.graph) (current := none) b2'
        simp only [RM.bind_run, b4, RM.lift_run, moved_location a2, moved_rest]
        rfl
    | fail e evs k => obtain ⟨a1, a2⟩ := ha; simp only at a1; subst a1; rfl
    | abort e => obtain ⟨a1, a2⟩ := ha; simp only at a1; subst a1; rfl
    | panic q => have : res = .panic q := ha; subst this; rfl

end Ebnf
