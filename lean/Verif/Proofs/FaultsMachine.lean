import Verif.Proofs.FaultsReader
import Verif.Proofs.PureSims

set_option autoImplicit false

/-! # The machine over a source that fails now and then -/

namespace Ebnf

open Spec

variable {dbg : Bool} {α : Type}

/-! ## The scanners of the library -/

theorem passes_get {k : Reader → RM Reader α} (hk : ∀ r, Passes (k r)) (he : ∀ r, k (steady r) = k r) :
    Passes (RM.get >>= k) := by
  intro r
  simp only [RM.bind_run, RM.get_run, he]
  exact hk r r

theorem passes_charsLoop (allowed : Char → Bool) (max : Option Nat) (fuel : Nat) :
    ∀ count, Passes (charsLoop allowed max fuel count) := by
  induction fuel with
  | zero => intro count; exact passes_lift _
  | succ fuel ih =>
    intro count
    unfold charsLoop
    by_cases h : (max.map fun m => decide (count < m)).getD true = true
    · simp only [if_pos h]
      refine passes_bind passes_mark fun m => passes_bind passes_read fun ch => ?_
      cases ch with
      | none => exact passes_pure _
      | some ch =>
        simp only
        by_cases hp : (!allowed ch) = true
        · simp only [if_pos hp]; exact passes_bind (passes_reset m) fun _ => passes_pure _
        · simp only [if_neg hp]
          exact passes_bind (passes_unmark m) fun _ => passes_bind (ih _) fun _ => passes_pure _
    · simp only [if_neg h]; exact passes_pure _

theorem passes_chars (allowed : Char → Bool) (min max : Option Nat) (definition : Location) :
    Passes ((charsScanner allowed min max).scan definition) := by
  refine passes_bind passes_mark fun m => passes_bind passes_location fun l => passes_get (fun r => ?_) (fun r => by
    simp only [steady_size])
  refine passes_bind (passes_charsLoop _ _ _ _) fun b => ?_
  by_cases h : (min.map fun m => decide (b.length < m)).getD false = true
  · simp only [if_pos h]; exact passes_bind (passes_reset m) fun _ => passes_pure _
  · simp only [if_neg h]; exact passes_pure _

theorem passes_regex (source : Str) (find : Str → Option (Nat × Nat)) (definition : Location) :
    Passes ((regexScanner source find).scan definition) := by
  refine passes_bind passes_location fun l => passes_bind (passes_peek 257) fun text => ?_
  cases find text with
  | none => exact passes_pure _
  | some x =>
    obtain ⟨a, n⟩ := x
    cases a with
    | succ a => exact passes_pure _
    | zero =>
      simp only
      by_cases h : (text.take n).length > 256
      · simp only [if_pos h]; exact passes_bind passes_location fun _ => passes_lift _
      · simp only [if_neg h]; exact passes_bind (passes_skip _) fun _ => passes_pure _

theorem library_reports {s : SpecialScanner} (h : LibraryScanner s) : ReportsFaults s := by
  cases h with
  | default content => exact fun _ => (passes_pure _).spec
  | chars allowed min max => exact fun definition => (passes_chars allowed min max definition).spec
  | regex source find => exact fun definition => (passes_regex source find definition).spec

/-! ## Runs -/

/-- A run on a reader with a failing source, compared with the outcome it has without failures: it ends with the failure,
or as it would, except that another error may be given and the reader may be elsewhere when it does not match. -/
def AgreesFM (dbg : Bool) (c : Cursor) (ms : List (Nat × Nat)) (x : Res (Prospect × List Event) × Reader)
    (o : Option Outcome) : Prop :=
  (∃ e, x.1 = .err e ∧ IsFault e) ∨
  match o with
  | none => x.1 = .diverge
  | some (.ok evs n) => x.1 = .ok (.proceed, evs) ∧ n ≤ c.rest.length ∧
      ∃ own, StandsF dbg x.2 ⟨c.start, c.text, c.pos + n, own ++ ms⟩
  | some (.fail _ evs _) => (∃ e, x.1 = .ok (.notThisWay e, evs)) ∧
      ∃ own p, StandsF dbg x.2 ⟨c.start, c.text, p, own ++ ms⟩
  | some (.abort e) => x.1 = .err e
  | some (.panic p) => x.1 = .panic p

/-- The run with failures is the pure run. -/
def SimsF (dbg : Bool) (run : Run) (p : PRun) : Prop :=
  ∀ r c, StandsF dbg r c → AgreesFM dbg c c.marks (run r) (p c.location c.rest)

theorem agreesF_shift {c : Cursor} {n : Nat} {own ms : List (Nat × Nat)} {x : Res (Prospect × List Event) × Reader}
    {o : Option Outcome} (hn : n ≤ c.rest.length)
    (h : AgreesFM dbg ⟨c.start, c.text, c.pos + n, own ++ ms⟩ (own ++ ms) x o) :
    AgreesFM dbg c ms x (o.map fun
      | .ok evs m => .ok evs (n + m)
      | .fail e evs m => .fail e evs (n + m)
      | o => o) := by
  rcases h with h | h
  · exact .inl h
  right
  cases o with
  | none => exact h
  | some o =>
    cases o with
    | ok evs m =>
      obtain ⟨h1, h2, own', h3⟩ := h
      rw [moved_rest, List.length_drop] at h2
      exact ⟨h1, by omega, own' ++ own, by simpa [Nat.add_assoc] using h3⟩
    | fail e evs m =>
      obtain ⟨h1, own', p, h3⟩ := h
      exact ⟨h1, own' ++ own, p, by simpa using h3⟩
    | abort e => exact h
    | panic p => exact h

theorem agreesFM_drop {c : Cursor} {x : Res (Prospect × List Event) × Reader} {o : Option Outcome}
    {top ms : List (Nat × Nat)} (h : AgreesFM dbg c (top ++ ms) x o) : AgreesFM dbg c ms x o := by
  rcases h with h | h
  · exact .inl h
  right
  cases o with
  | none => exact h
  | some o =>
    cases o with
    | ok evs m =>
      obtain ⟨h1, h2, own', h3⟩ := h
      exact ⟨h1, h2, own' ++ top, by simpa using h3⟩
    | fail e evs m =>
      obtain ⟨h1, own', p, h3⟩ := h
      exact ⟨h1, own' ++ top, p, by simpa using h3⟩
    | abort e => exact h
    | panic p => exact h

/-- Mark, then run. -/
theorem mark_runF {run : Run} {p : PRun} (hs : SimsF dbg run p) {r : Reader} {c : Cursor} (h : StandsF dbg r c) :
    ∃ m r', Reader.mark r = (.ok m, r') ∧ StandsF dbg r' ⟨c.start, c.text, c.pos, (m, c.pos) :: c.marks⟩ ∧
      AgreesFM dbg c ((m, c.pos) :: c.marks) (run r') (p c.location c.rest) := by
  obtain ⟨m, r', h1, h2, _⟩ := mark_F h
  exact ⟨m, r', h1, h2, hs r' _ h2⟩

/-- Composing an error swallows a failure of the source. -/
theorem errExpected_F {g : Graph} {current : Option Nat} {r : Reader} {c : Cursor} (h : StandsF dbg r c) :
    ∃ e r' own p, errExpected g current r = (.ok e, r') ∧ StandsF dbg r' ⟨c.start, c.text, p, own ++ c.marks⟩ := by
  have key : ∃ own p, StandsF dbg (streamPrefix r).2 ⟨c.start, c.text, p, own ++ c.marks⟩ ∧
      ((∃ a, (streamPrefix r).1 = .ok a) ∨ ∃ e, (streamPrefix r).1 = .err e) := by
    unfold streamPrefix
    simp only [RM.bind_run]
    obtain ⟨r1, h1, h2⟩ := isEof_at h
    rcases passes_F passes_isEof.spec h1 with ⟨e, r2, h3, _⟩ | ⟨r2, h3, h4⟩
    · have := isEof_F h (e := e) (by rw [h3])
      obtain ⟨m, _, h5⟩ := this
      rw [h3] at h5 ⊢
      exact ⟨[(m, c.pos)], c.pos, h5, .inr ⟨e, rfl⟩⟩
    · rw [h3]
      subst h4
      by_cases hr : c.rest = []
      · simp only [decide_eq_true hr, if_true, RM.pure_run]
        exact ⟨[], c.pos, h2, .inl ⟨_, rfl⟩⟩
      · simp only [decide_eq_false hr, Bool.false_eq_true, if_false, RM.bind_run]
        obtain ⟨r3, h5, h6, _⟩ := peek_at h2 9
        rcases passes_F (passes_peek 9).spec h5 with ⟨e, r4, h7, _⟩ | ⟨r4, h7, h8⟩
        · obtain ⟨k, m, _, _, h9⟩ := peek_F h2 9 (e := e) (by rw [h7])
          rw [h7] at h9 ⊢
          exact ⟨[(m, c.pos)], c.pos + k, h9, .inr ⟨e, rfl⟩⟩
        · rw [h7]
          subst h8
          exact ⟨[], c.pos, h6, .inl ⟨_, rfl⟩⟩
  obtain ⟨own, p, h1, h2⟩ := key
  unfold errExpected
  generalize streamPrefix r = x at h1 h2
  obtain ⟨x, r1⟩ := x
  rcases h2 with ⟨a, h2⟩ | ⟨e, h2⟩
  · simp only at h2; subst h2
    exact ⟨_, r1, own, p, rfl, h1⟩
  · simp only at h2; subst h2
    exact ⟨_, r1, own, p, rfl, h1⟩

/-! ## Repetitions -/

theorem simsF_loop {body : Run} {pbody : PRun} (hb : SimsF dbg body pbody) (min max fuel : Nat) :
    ∀ (i : Nat) (temp : List Event) (r : Reader) (c : Cursor), StandsF dbg r c →
      AgreesFM dbg c c.marks (repetitionLoop body min max fuel i temp r)
        ((ploop pbody min max fuel i c.location c.rest).map (withEvents temp)) := by
  induction fuel with
  | zero => intro i temp r c h; exact .inr rfl
  | succ fuel ih =>
    intro i temp r c h
    unfold repetitionLoop ploop
    by_cases hi : i < max
    · rw [if_pos hi, if_pos hi]
      obtain ⟨m, r1, h1, h2, hx⟩ := mark_runF hb h
      simp only [RM.bind_run, location_F h, h1]
      generalize body r1 = x at hx
      generalize hpo : pbody c.location c.rest = o at hx
      obtain ⟨res, r2⟩ := x
      rcases hx with ⟨e, hx, hf⟩ | hx
      · simp only at hx; subst hx; exact .inl ⟨e, rfl, hf⟩
      cases o with
      | none => simp only at hx; subst hx; exact .inr rfl
      | some o =>
        cases o with
        | ok evs n =>
          obtain ⟨hx1, hx2, own, hx3⟩ := hx
          simp only at hx1; subst hx1
          simp only [RM.bind_run, location_F hx3, moved_location hx2]
          by_cases hl : max = u32Max ∧ n = 0
          · rw [if_pos hl, if_pos ⟨hl.1, by rw [lineColumn_self_iff, take_eq_nil_iff' hx2]; exact hl.2⟩]
            exact .inr rfl
          · rw [if_neg hl, if_neg (by rw [lineColumn_self_iff, take_eq_nil_iff' hx2]; exact hl)]
            have := agreesFM_drop (top := [(m, c.pos)]) (agreesF_shift hx2 (ih (i + 1) (temp ++ evs) r2 _ hx3))
            rw [moved_location hx2, moved_rest] at this
            revert this
            generalize ploop pbody min max fuel (i + 1) (lineColumn c.location (c.rest.take n)) (c.rest.drop n) = o
            intro this
            cases o with
            | none => exact this
            | some o => cases o <;> simpa [withEvents, Outcome.afterRound] using this
        | fail e evs n =>
          obtain ⟨⟨e', hx1⟩, own, pp, hx3⟩ := hx
          simp only at hx1; subst hx1
          simp only
          by_cases hm : i < min
          · rw [if_pos hm, if_pos hm]
            exact .inr ⟨⟨e', rfl⟩, own ++ [(m, c.pos)], pp, by simpa using hx3⟩
          · rw [if_neg hm, if_neg hm]
            obtain ⟨k, r3, own', h3, h4⟩ := reset_F hx3
            simp only [RM.bind_run, h3, RM.pure_run]
            exact .inr ⟨rfl, by simp, own', h4⟩
        | abort e => simp only at hx; subst hx; exact .inr rfl
        | panic p => simp only at hx; subst hx; exact .inr rfl
    · rw [if_neg hi, if_neg hi]
      exact .inr ⟨by simp, by simp, [], by simpa using h⟩

/-! ## Alternatives -/

theorem simsF_or {run : Nat → Run} {p : Nat → PRun} (hs : ∀ a, SimsF dbg (run a) (p a)) (subs : List Nat) :
    ∀ (errors : List Error) (r : Reader) (c : Cursor), StandsF dbg r c → subs ≠ [] →
      (∃ e, (orLoop run subs errors r).1 = .err e ∧ IsFault e) ∨
      match por p subs c.location c.rest with
      | none => (orLoop run subs errors r).1 = .diverge
      | some (.ok evs n) => (orLoop run subs errors r).1 = .ok (.ok evs) ∧ n ≤ c.rest.length ∧
          ∃ own, StandsF dbg (orLoop run subs errors r).2 ⟨c.start, c.text, c.pos + n, own ++ c.marks⟩
      | some (.fail _ _ _) => ∃ es, (orLoop run subs errors r).1 = .ok (.error (errors ++ es)) ∧ es ≠ [] ∧
          ∃ own, StandsF dbg (orLoop run subs errors r).2 ⟨c.start, c.text, c.pos, own ++ c.marks⟩
      | some (.abort e) => (orLoop run subs errors r).1 = .err e
      | some (.panic p) => (orLoop run subs errors r).1 = .panic p := by
  induction subs with
  | nil => intro errors r c h hne; exact absurd rfl hne
  | cons a l ih =>
    intro errors r c h _
    obtain ⟨m, r1, h1, h2, hx⟩ := mark_runF (hs a) h
    have hloop : orLoop run (a :: l) errors r =
        (match run a r1 with
        | (.ok (.proceed, evs), r2) => (.ok (.ok evs), r2)
        | (.ok (.notThisWay e, _), r2) =>
          (match Reader.resetToMark m r2 with
          | (.ok _, r3) => orLoop run l (errors ++ [e]) r3
          | (.err e, r3) => (.err e, r3)
          | (.panic p, r3) => (.panic p, r3)
          | (.diverge, r3) => (.diverge, r3))
        | (.err e, r2) => (.err e, r2)
        | (.panic p, r2) => (.panic p, r2)
        | (.diverge, r2) => (.diverge, r2)) := by
      conv => lhs; unfold orLoop
      simp only [RM.bind_run, h1]
      generalize run a r1 = x
      obtain ⟨res, r2⟩ := x
      cases res with
      | ok pe =>
        obtain ⟨pr, evs⟩ := pe
        cases pr with
        | proceed => rfl
        | notThisWay e =>
          simp only [RM.bind_run]
          generalize Reader.resetToMark m r2 = y
          obtain ⟨resy, r3⟩ := y
          cases resy <;> rfl
      | err e => rfl
      | panic q => rfl
      | diverge => rfl
    rw [hloop]
    generalize run a r1 = x at hx
    obtain ⟨res, r2⟩ := x
    have hpor : por p (a :: l) c.location c.rest =
        (match p a c.location c.rest with
        | some (.fail e _ _) =>
          (match l with
          | [] => some (.fail e [] 0)
          | b :: l' =>
            match por p (b :: l') c.location c.rest with
            | some (.fail e' _ _) => some (.fail (laterError e e') [] 0)
            | o => o)
        | o => o) := by
      cases l <;> rfl
    rw [hpor]
    generalize p a c.location c.rest = o at hx
    rcases hx with ⟨e, hx, hf⟩ | hx
    · simp only at hx; subst hx; exact .inl ⟨e, rfl, hf⟩
    cases o with
    | none => simp only at hx; subst hx; exact .inr rfl
    | some o =>
      cases o with
      | ok evs n =>
        obtain ⟨hx1, hx2, own, hx3⟩ := hx
        simp only at hx1; subst hx1
        exact .inr ⟨rfl, hx2, own ++ [(m, c.pos)], by simpa using hx3⟩
      | abort e => simp only at hx; subst hx; exact .inr rfl
      | panic q => simp only at hx; subst hx; exact .inr rfl
      | fail e evs n =>
        obtain ⟨⟨e1, hx1⟩, own, pp, hx3⟩ := hx
        simp only at hx1; subst hx1
        simp only
        obtain ⟨k, r3, own', h3, h4⟩ := reset_F hx3
        simp only [h3]
        cases l with
        | nil => exact .inr ⟨[e1], rfl, by simp, own', h4⟩
        | cons b l' =>
          have hi := ih (errors ++ [e1]) r3 _ h4 (by simp)
          simp only at hi ⊢
          have e1' : (⟨c.start, c.text, c.pos, own' ++ c.marks⟩ : Cursor).location = c.location := rfl
          have e2' : (⟨c.start, c.text, c.pos, own' ++ c.marks⟩ : Cursor).rest = c.rest := rfl
          rw [e1', e2'] at hi
          rcases hi with hi | hi
          · exact .inl hi
          right
          generalize por p (b :: l') c.location c.rest = o at hi
          cases o with
          | none => exact hi
          | some o =>
            cases o with
            | ok evs' n' =>
              obtain ⟨i1, i2, own2, i3⟩ := hi
              exact ⟨i1, i2, own2 ++ own', by simpa using i3⟩
            | fail e' evs' n' =>
              obtain ⟨es, i1, i2, own2, i6⟩ := hi
              exact ⟨e1 :: es, by simpa using i1, by simp, own2 ++ own', by simpa using i6⟩
            | abort e' => exact hi
            | panic q => exact hi

/-! ## Exceptions -/

theorem passes_capture (endLoc : Location) (fuel : Nat) : Passes (captureLoop endLoc fuel) := by
  induction fuel with
  | zero => exact passes_lift _
  | succ fuel ih =>
    refine passes_bind passes_location fun here => ?_
    by_cases hc : here.lines < endLoc.lines ∨ here.columns < endLoc.columns
    · simp only [if_pos hc]
      refine passes_bind passes_read fun ch => ?_
      cases ch with
      | none => exact ih
      | some ch => exact passes_bind ih fun _ => passes_pure _
    · simp only [if_neg hc]; exact passes_pure _

theorem simsF_exception {g : Graph} {addr : Nat} {runF runX : Run} {pF pX : PRun} (hf : SimsF dbg runF pF)
    (hx : Sims dbg runX pX) :
    SimsF dbg (scanException g addr runF runX) (fun here rest =>
      match pF here rest with
      | some (.ok evs n) =>
        match pX here (rest.take n) with
        | some (.ok _ m) =>
          if m = n then some (.fail (expectedAt (symbolAt g (some addr)) here rest) [] 0) else some (.ok evs n)
        | some (.fail _ _ _) => some (.ok evs n)
        | o => o
      | some (.fail e _ _) => some (.fail e [] 0)
      | o => o) := by
  intro r c h
  obtain ⟨m, r1, h1, h2, ha⟩ := mark_runF hf h
  unfold scanException
  simp only [RM.bind_run, location_F h, h1]
  generalize runF r1 = x at ha
  generalize pF c.location c.rest = o at ha
  obtain ⟨res, r2⟩ := x
  rcases ha with ⟨e, ha, hf⟩ | ha
  · simp only at ha; subst ha; exact .inl ⟨e, rfl, hf⟩
  cases o with
  | none => simp only at ha; subst ha; exact .inr rfl
  | some o =>
    cases o with
    | abort e => simp only at ha; subst ha; exact .inr rfl
    | panic q => simp only at ha; subst ha; exact .inr rfl
    | fail e evs n =>
      obtain ⟨⟨e1, ha1⟩, own, pp, ha3⟩ := ha
      simp only at ha1; subst ha1
      obtain ⟨k, r3, own', h3, h4⟩ := reset_F ha3
      simp only [RM.bind_run, h3, RM.pure_run]
      exact .inr ⟨⟨e1, rfl⟩, own', c.pos, h4⟩
    | ok evs n =>
      obtain ⟨ha1, ha2, own, ha3⟩ := ha
      simp only at ha1; subst ha1
      obtain ⟨k, r3, own', h3, h4⟩ := reset_F ha3
      obtain ⟨m', r4, h5, h6, _⟩ := mark_F h4
      have hsz := size_at h6.1
      rw [steady_size] at hsz
      have hrest : (⟨c.start, c.text, c.pos, (m', c.pos) :: (own' ++ c.marks)⟩ : Cursor).rest = c.rest := rfl
      have hloc : (⟨c.start, c.text, c.pos, (m', c.pos) :: (own' ++ c.marks)⟩ : Cursor).location = c.location := rfl
      simp only at hsz
      rw [hrest] at hsz
      obtain ⟨r5, h7, h8⟩ := capture_at n (r4.size + 1) (steady r4) _ h6 (by simp) ha2 (by omega)
      simp only [hrest, hloc] at h7
      have hd4 : r4.buffer.dbg = dbg := h6.2
      simp only [RM.bind_run, location_F ha3, moved_location ha2, h3, h5, RM.get_run]
      rcases passes_F (passes_capture _ _).spec h7 with ⟨e, r6, h9, hf⟩ | ⟨r6, h9, h10⟩
      · rw [h9]; exact .inl ⟨e, rfl, hf⟩
      subst h10
      have h8' : StandsF dbg r6 ⟨c.start, c.text, c.pos + n, (m', c.pos) :: (own' ++ c.marks)⟩ := h8
      rw [h9]
      simp only [location_F h8']
      have hloc6 : (⟨c.start, c.text, c.pos + n, (m', c.pos) :: (own' ++ c.marks)⟩ : Cursor).location =
          lineColumn c.location (c.rest.take n) := moved_location ha2
      rw [hloc6, if_neg (by simp), hd4]
      have hrep : Stands dbg (Reader.withLocation c.location (.buffered (c.rest.take n)) dbg)
          ⟨c.location, c.rest.take n, 0, []⟩ :=
        ⟨(new_rep ⟨[], rfl, by simp [Source.buffered]⟩ dbg).toRep, rfl⟩
      have hxx := hx _ _ hrep
      have hr0 : (⟨c.location, c.rest.take n, 0, []⟩ : Cursor).rest = c.rest.take n := rfl
      have hl0 : (⟨c.location, c.rest.take n, 0, []⟩ : Cursor).location = c.location := by
        simp [Cursor.location, lineColumn_nil]
      rw [hr0, hl0] at hxx
      simp only [RM.bind_run, RM.lift_run]
      generalize runX (Reader.withLocation c.location (Source.buffered (c.rest.take n)) dbg) = y at hxx
      generalize pX c.location (c.rest.take n) = oy at hxx
      obtain ⟨resy, ry⟩ := y
      have hlen : (c.rest.take n).length = n := by rw [List.length_take]; omega
      right
      cases oy with
      | none => simp only [AgreesM] at hxx; subst hxx; rfl
      | some oy =>
        cases oy with
        | abort e =>
          obtain ⟨hb1, _⟩ := hxx
          simp only at hb1; subst hb1; rfl
        | panic q => simp only [AgreesM] at hxx; subst hxx; rfl
        | fail e evs' k' =>
          obtain ⟨hb1, hb2, ownb, hb3⟩ := hxx
          simp only at hb1; subst hb1
          simp only [RM.pure_run, Bool.false_eq_true, if_false]
          exact ⟨trivial, ha2, (m', c.pos) :: own', h8⟩
        | ok evs' k' =>
          obtain ⟨hb1, hb2, ownb, hb3⟩ := hxx
          simp only at hb1; subst hb1
          obtain ⟨r6, h9, h10⟩ := isEof_at hb3
          simp only [h9]
          rw [hr0] at hb2
          have hke : (⟨c.location, c.rest.take n, 0 + k', ownb ++ []⟩ : Cursor).rest = [] ↔ k' = n := by
            rw [Cursor.rest]
            simp only [List.drop_eq_nil_iff]
            omega
          by_cases hk : k' = n
          · rw [decide_eq_true (hke.mpr hk), if_pos rfl]
            obtain ⟨k2, r7, own3, h11, h12⟩ := reset_F (own := []) h8'
            obtain ⟨e2, r8, own4, p4, h13, h14⟩ := errExpected_F (g := g) (current := some addr) h12
            simp only [RM.bind_run, h11, h13, RM.pure_run]
            rw [if_pos hk]
            exact ⟨⟨e2, rfl⟩, own4 ++ own3 ++ own', p4, by simpa using h14⟩
          · rw [decide_eq_false (fun hc => hk (hke.mp hc))]
            simp only [Bool.false_eq_true, if_false, RM.pure_run]
            rw [if_neg hk]
            exact ⟨rfl, ha2, (m', c.pos) :: own', h8⟩

/-! ## Scanners -/

theorem simsF_terminal {g : Graph} {addr : Nat} {instr : Instruction} {s : Str} :
    SimsF dbg (scanTerminal g addr instr s) (fun here rest =>
      if s <+: rest then some (.ok [.token instr.definition here s] s.length)
      else some (.fail (expectedAt (symbolAt g (some addr)) here rest) [] 0)) := by
  intro r c h
  obtain ⟨r1, h1, h2, h3⟩ := prefixMatches_at h s
  unfold scanTerminal
  simp only [RM.bind_run]
  rcases passes_F (passes_prefixMatches s).spec h1 with ⟨e, r2, a1, hf⟩ | ⟨r2, a1, a2⟩
  · rw [a1]; exact .inl ⟨e, rfl, hf⟩
  subst a2
  have h2' : StandsF dbg r2 c := h2
  rw [a1]
  by_cases hp : s <+: c.rest
  · simp only [decide_eq_true hp, if_true]
    rw [if_pos hp]
    obtain ⟨r4, h4, h5⟩ := skip_at h2 (h3 hp)
    rw [Nat.min_eq_left hp.length_le] at h5
    simp only [RM.bind_run, location_F h2']
    rcases passes_F (passes_skip _).spec h4 with ⟨e, r3, b1, hf⟩ | ⟨r3, b1, b2⟩
    · rw [b1]; exact .inl ⟨e, rfl, hf⟩
    subst b2
    rw [b1]
    exact .inr ⟨rfl, hp.length_le, [], h5⟩
  · simp only [decide_eq_false hp, Bool.false_eq_true, if_false]
    rw [if_neg hp]
    obtain ⟨e, r3, own, p, h4, h5⟩ := errExpected_F (g := g) (current := some addr) h2'
    simp only [RM.bind_run, h4, RM.pure_run]
    exact .inr ⟨⟨e, rfl⟩, own, p, h5⟩

theorem simsF_special {g : Graph} {addr : Nat} {instr : Instruction} {scanner : SpecialScanner} {f : Recognizer}
    (hb : Behaves dbg scanner f) (hrep : ReportsFaults scanner) (hnf : ∀ d l t name n, f d l t ≠ .forward name n)
    {run : Nat → Run} {p : Nat → PRun} :
    SimsF dbg (scanSpecial g addr instr scanner run) (fun here rest =>
      match f instr.definition here rest with
      | .accept evs n => some (.ok evs n)
      | .unmatched => some (.fail (expectedAt (symbolAt g (some addr)) here rest) [] 0)
      | .error e => some (.abort e)
      | .forward name n =>
        match g.indexOfLabel name with
        | none => some (.abort ⟨here, .forwardUndefined name instr.symbol instr.definition⟩)
        | some address =>
          match p address (lineColumn here (rest.take n)) (rest.drop n) with
          | some (.ok evs m) => some (.ok evs (n + m))
          | some (.fail _ evs m) => some (.ok evs (n + m))
          | o => o) := by
  intro r c h
  obtain ⟨m, r1, h1, h2, _⟩ := mark_F h
  have hb' := hb instr.definition (steady r1) _ h2.1 h2.2 (by simp)
  have e1 : (⟨c.start, c.text, c.pos, (m, c.pos) :: c.marks⟩ : Cursor).location = c.location := rfl
  have e2 : (⟨c.start, c.text, c.pos, (m, c.pos) :: c.marks⟩ : Cursor).rest = c.rest := rfl
  rw [e1, e2] at hb'
  have hnf' := hnf instr.definition c.location c.rest
  unfold scanSpecial
  simp only [RM.bind_run, h1]
  generalize f instr.definition c.location c.rest = o at hb' hnf'
  cases o with
  | accept evs n =>
    obtain ⟨r2, own, h3, h4, h5, h6, _⟩ := hb'
    rcases passes_F (hrep _) h3 with ⟨e, r3, a1, hf⟩ | ⟨r3, a1, a2⟩
    · rw [a1]; exact .inl ⟨e, rfl, hf⟩
    subst a2
    obtain ⟨r4, own', h7, h8⟩ := unmark_F (r := r3) (start := c.start) (text := c.text) (pos := c.pos + n) (own := own)
      (m := m) (p := c.pos) (ms := c.marks) ⟨h5, h6⟩
    simp only [a1, RM.bind_run, h7, RM.pure_run]
    exact .inr ⟨rfl, h4, own', h8⟩
  | unmatched =>
    obtain ⟨r2, own, pp, h3, h5, h6⟩ := hb'
    rcases passes_F (hrep _) h3 with ⟨e, r3, a1, hf⟩ | ⟨r3, a1, a2⟩
    · rw [a1]; exact .inl ⟨e, rfl, hf⟩
    subst a2
    obtain ⟨k, r4, own', h7, h8⟩ := reset_F (r := r3) (start := c.start) (text := c.text) (pos := pp) (own := own)
      (m := m) (p := c.pos) (ms := c.marks) ⟨h5, h6⟩
    obtain ⟨e, r5, own5, p5, h9, h10⟩ := errExpected_F (g := g) (current := some addr) h8
    simp only [a1, RM.bind_run, h7, h9, RM.pure_run]
    exact .inr ⟨⟨e, rfl⟩, own5 ++ own', p5, by simpa using h10⟩
  | error e =>
    obtain ⟨r2, own, p, h3, _⟩ := hb'
    rcases passes_F (hrep _) h3 with ⟨e, r3, a1, hf⟩ | ⟨r3, a1, a2⟩
    · rw [a1]; exact .inl ⟨e, rfl, hf⟩
    rw [a1]
    exact .inr rfl
  | forward name n => exact absurd rfl (hnf' name n)

/-! ## Instructions -/

/-- Every scanner of the graph reports failures and forwards nothing. -/
def GraphReports (sem : SpecialScanner → Recognizer) (g : Graph) : Prop :=
  ∀ addr instr scanner, g.instruction addr = some instr → instr.step = .scan (.special scanner) →
    ReportsFaults scanner ∧ ∀ d l t name n, sem scanner d l t ≠ .forward name n

theorem simsF_step {sem : SpecialScanner → Recognizer} {g : Graph} (hg : GraphBehaves dbg sem g) (hr : GraphReports sem g)
    {run : Nat → Run} {p : Nat → PRun} (hs : ∀ a, Sims dbg (run a) (p a)) (hsF : ∀ a, SimsF dbg (run a) (p a))
    (fuel addr : Nat) (instr : Instruction) (hi : g.instruction addr = some instr) :
    SimsF dbg (execStep g run fuel addr instr) (pexec sem g p fuel addr instr) := by
  intro r c h
  unfold execStep pexec
  cases hst : instr.step with
  | repetition min max sub =>
    have := simsF_loop (hsF sub) min max fuel 0 [] r c h
    simp only
    revert this
    generalize ploop (p sub) min max fuel 0 c.location c.rest = o
    intro this
    cases o with
    | none => exact this
    | some o => cases o <;> simpa [withEvents] using this
  | or subs =>
    simp only [RM.bind_run]
    by_cases hne : subs = []
    · subst hne
      simp only [orLoop, por, RM.pure_run, List.reverse_nil, RM.lift_run]
      exact .inr rfl
    · have ho := simsF_or hsF subs [] r c h hne
      generalize orLoop run subs [] r = x at ho
      generalize por p subs c.location c.rest = o at ho
      obtain ⟨res, r1⟩ := x
      rcases ho with ⟨e, ho, hf⟩ | ho
      · simp only at ho; subst ho; exact .inl ⟨e, rfl, hf⟩
      right
      cases o with
      | none => simp only at ho; subst ho; rfl
      | some o =>
        cases o with
        | ok evs n => obtain ⟨a1, a2⟩ := ho; simp only at a1; subst a1; exact ⟨rfl, a2⟩
        | abort e => simp only at ho; subst ho; rfl
        | panic q => simp only at ho; subst ho; rfl
        | fail e evs n =>
          obtain ⟨es, a1, a2, own, a6⟩ := ho
          simp only [List.nil_append] at a1; subst a1
          simp only
          cases hes : es.reverse with
          | nil => exact absurd (List.reverse_eq_nil_iff.mp hes) a2
          | cons last others =>
            simp only [RM.bind_run, location_F a6]
            by_cases hc : (pickError last others).location = (⟨c.start, c.text, c.pos, own ++ c.marks⟩ : Cursor).location
            · rw [if_pos hc]
              obtain ⟨e2, r2, own2, p2, b1, b2⟩ := errExpected_F (g := g) (current := some addr) a6
              simp only [RM.bind_run, b1, RM.pure_run]
              exact ⟨⟨e2, rfl⟩, own2 ++ own, p2, by simpa using b2⟩
            · rw [if_neg hc]
              exact ⟨⟨_, rfl⟩, own, c.pos, a6⟩
  | alias name =>
    simp only
    cases g.indexOfLabel name with
    | none => exact .inr rfl
    | some address =>
      simp only
      cases g.canonicalName name with
      | none => exact .inr rfl
      | some label =>
        simp only [RM.bind_run, location_F h]
        have ha := hsF address r c h
        generalize run address r = x at ha
        generalize p address c.location c.rest = o at ha
        obtain ⟨res, r1⟩ := x
        rcases ha with ⟨e, ha, hf⟩ | ha
        · simp only at ha; subst ha; exact .inl ⟨e, rfl, hf⟩
        right
        cases o with
        | none => have : res = .diverge := ha; subst this; rfl
        | some o =>
          cases o with
          | ok evs k =>
            obtain ⟨a1, a2, own, a3⟩ := ha
            simp only at a1; subst a1
            simp only [RM.bind_run, location_F a3, RM.pure_run, moved_location a2]
            exact ⟨trivial, a2, own, a3⟩
          | fail e evs k => obtain ⟨⟨e1, a1⟩, a2⟩ := ha; simp only at a1; subst a1; exact ⟨⟨e1, rfl⟩, a2⟩
          | abort e => have : res = .err e := ha; subst this; rfl
          | panic q => have : res = .panic q := ha; subst this; rfl
  | scan sc =>
    cases sc with
    | terminal s => exact simsF_terminal r c h
    | special scanner =>
      obtain ⟨h1, h2⟩ := hr addr instr scanner hi hst
      exact simsF_special (hg addr instr scanner hi hst) h1 h2 r c h
    | empty => exact .inr ⟨rfl, by simp, [], h⟩
    | exception f x => exact simsF_exception (hsF f) (hs x) r c h

/-- The machine with failures. -/
theorem simsF_run {sem : SpecialScanner → Recognizer} {g : Graph} (hg : GraphBehaves dbg sem g) (hr : GraphReports sem g)
    (fuel : Nat) : ∀ next, SimsF dbg (runFrom g fuel next) (prun sem g fuel next) := by
  induction fuel with
  | zero => intro next r c h; exact .inr rfl
  | succ fuel ih =>
    intro next r c h
    cases next with
    | none => exact .inr ⟨rfl, by simp, [], h⟩
    | some addr =>
      unfold runFrom prun
      cases hi : g.instruction addr with
      | none => exact .inr rfl
      | some instr =>
        simp only [RM.bind_run]
        have ha := simsF_step hg hr (fun a => sims_run hg fuel (some a)) (fun a => ih (some a)) fuel addr instr hi r c h
        generalize execStep g (fun a => runFrom g fuel (some a)) fuel addr instr r = x at ha
        generalize pexec sem g (fun a => prun sem g fuel (some a)) fuel addr instr c.location c.rest = o at ha
        obtain ⟨res, r1⟩ := x
        rcases ha with ⟨e, ha, hf⟩ | ha
        · simp only at ha; subst ha; exact .inl ⟨e, rfl, hf⟩
        cases o with
        | none => have : res = .diverge := ha; subst this; exact .inr rfl
        | some o =>
          cases o with
          | ok evs n =>
            obtain ⟨a1, a2, own, a3⟩ := ha
            simp only at a1; subst a1
            have hb := agreesF_shift a2 (ih instr.next r1 _ a3)
            rw [moved_location a2, moved_rest] at hb
            simp only [RM.bind_run]
            generalize runFrom g fuel instr.next r1 = y at hb
            generalize prun sem g fuel instr.next (lineColumn c.location (c.rest.take n)) (c.rest.drop n) = o at hb
            obtain ⟨resy, r2⟩ := y
            rcases hb with ⟨e, hb, hf⟩ | hb
            · simp only at hb; subst hb; exact .inl ⟨e, rfl, hf⟩
            right
            cases o with
            | none => have : resy = .diverge := hb; subst this; rfl
            | some o =>
              cases o with
              | ok evs' k => obtain ⟨b1, b2⟩ := hb; simp only at b1; subst b1; exact ⟨rfl, b2⟩
              | fail e evs' k => obtain ⟨⟨e1, b1⟩, b2⟩ := hb; simp only at b1; subst b1; exact ⟨⟨e1, rfl⟩, b2⟩
              | abort e => have : resy = .err e := hb; subst this; rfl
              | panic q => have : resy = .panic q := hb; subst this; rfl
          | fail e evs k => obtain ⟨⟨e1, a1⟩, a2⟩ := ha; simp only at a1; subst a1; exact .inr ⟨⟨e1, rfl⟩, a2⟩
          | abort e => have : res = .err e := ha; subst this; exact .inr rfl
          | panic q => have : res = .panic q := ha; subst this; exact .inr rfl

/-- `parse` with failures: the failure is reported, or the answer is the one without failures, up to the error given. -/
theorem parse_faults {sem : SpecialScanner → Recognizer} {m : Machine} (hg : GraphBehaves dbg sem m.graph)
    (hr : GraphReports sem m.graph) (fuel : Nat) {r : Reader} {c : Cursor} (h : StandsF dbg r c) :
    (∃ e, (m.parse fuel r).1 = .err e ∧ IsFault e) ∨ (m.parse fuel r).1 = (m.parse fuel (steady r)).1 ∨
      (∃ e e', (m.parse fuel r).1 = .err e ∧ (m.parse fuel (steady r)).1 = .err e') := by
  rw [parse_pure hg fuel h]
  have ha := simsF_run hg hr fuel (some m.entry) r c h
  unfold Machine.parse pparse
  simp only [RM.bind_run]
  generalize runFrom m.graph fuel (some m.entry) r = x at ha
  generalize prun sem m.graph fuel (some m.entry) c.location c.rest = o at ha
  obtain ⟨res, r1⟩ := x
  rcases ha with ⟨e, ha, hf⟩ | ha
  · simp only at ha; subst ha; exact .inl ⟨e, rfl, hf⟩
  cases o with
  | none => have : res = .diverge := ha; subst this; exact .inr (.inl rfl)
  | some o =>
    cases o with
    | ok evs n =>
      obtain ⟨a1, a2, own, a3⟩ := ha
      simp only at a1; subst a1
      obtain ⟨r2, b1, b2⟩ := isEof_at a3
      simp only [RM.bind_run]
      rcases passes_F passes_isEof.spec b1 with ⟨e, r3, b3, hf⟩ | ⟨r3, b3, b4⟩
      · rw [b3]; exact .inl ⟨e, rfl, hf⟩
      subst b4
      rw [b3]
      simp only [moved_rest]
      have he : c.rest.drop n = [] ↔ n = c.rest.length := by
        rw [List.drop_eq_nil_iff]; omega
      by_cases hn : n = c.rest.length
      · rw [decide_eq_true (he.mpr hn), if_pos rfl, if_pos hn]
        have hd : r3.buffer.dbg = dbg := b2.2
        simp only [RM.bind_run, RM.get_run, hd]
        right; left
        cases dbg && !labelsAgree evs <;> rfl
      · rw [decide_eq_false (fun hc => hn (he.mp hc)), if_neg hn]
        simp only [Bool.false_eq_true, if_false]
        obtain ⟨e, r4, own4, p4, b5, b6⟩ := errExpected_F (g := m.graph) (current := none) b2
        simp only [RM.bind_run, b5, RM.lift_run]
        exact .inr (.inr ⟨_, _, rfl, rfl⟩)
    | fail e evs k =>
      obtain ⟨⟨e1, a1⟩, a2⟩ := ha; simp only at a1; subst a1; exact .inr (.inr ⟨_, _, rfl, rfl⟩)
    | abort e => have : res = .err e := ha; subst this; exact .inr (.inl rfl)
    | panic q => have : res = .panic q := ha; subst this; exact .inr (.inl rfl)

end Ebnf
