import Verif.Proofs.FaultsMachine
import Verif.Proofs.Running

set_option autoImplicit false

/-! # Histories and parses over a source that fails now and then -/

namespace Ebnf

open Spec

variable {dbg : Bool} {α β : Type}

/-! ## Histories -/

theorem answer_steady {f : α → ReaderAns} {g : RM Reader α} {r : Reader} (h : g (steady r) = ((g r).1, steady (g r).2)) :
    answer f (g (steady r)) = ((answer f (g r)).1, steady (answer f (g r)).2) := by
  rw [h]
  generalize g r = x
  obtain ⟨x, r'⟩ := x
  cases x <;> rfl

/-- What an operation does: it meets the next failure, or none. -/
theorem perform_passes (op : ReaderOp) (r : Reader) :
    (∃ below code, (perform op r).1 = .error ⟨(perform op r).2.buffer.location, .wrapped below code⟩ ∧
      faultsOf r = code :: faultsOf (perform op r).2) ∨
    (perform op (steady r) = ((perform op r).1, steady (perform op r).2) ∧ faultsOf (perform op r).2 = faultsOf r) := by
  have key : ∀ {γ : Type} {f : γ → ReaderAns} {g : RM Reader γ}, Passes g →
      (∃ below code, (answer f (g r)).1 = .error ⟨(answer f (g r)).2.buffer.location, .wrapped below code⟩ ∧
        faultsOf r = code :: faultsOf (answer f (g r)).2) ∨
      (answer f (g (steady r)) = ((answer f (g r)).1, steady (answer f (g r)).2) ∧
        faultsOf (answer f (g r)).2 = faultsOf r) := by
    intro γ f g hg
    rcases hg r with ⟨below, code, h1, h2⟩ | ⟨h1, h2⟩
    · left
      generalize g r = x at h1 h2
      obtain ⟨x, r'⟩ := x
      simp only at h1; subst h1
      exact ⟨below, code, rfl, h2⟩
    · right
      refine ⟨answer_steady h1, ?_⟩
      generalize g r = x at h2
      obtain ⟨x, r'⟩ := x
      cases x <;> exact h2
  cases op with
  | read => exact key passes_read
  | readChars n => exact key (passes_readChars n)
  | readAll => exact key passes_readAll
  | peek n => exact key (passes_peek n)
  | prefixMatches p => exact key (passes_prefixMatches p)
  | isEof => exact key passes_isEof
  | skip n => exact key (passes_skip n)
  | mark => exact key passes_mark
  | resetToMark m => exact key (passes_reset m)
  | unmark m => exact key (passes_unmark m)
  | location => exact key passes_location

theorem answer_error {f : α → ReaderAns} (hf : ∀ a e, f a ≠ .error e) {x : Res α × Reader} {e : Error}
    (h : (answer f x).1 = .error e) : x.1 = .err e ∧ (answer f x).2 = x.2 := by
  obtain ⟨x, r⟩ := x
  cases x with
  | ok a => exact absurd h (hf a e)
  | err e' => simp only [answer, ReaderAns.error.injEq] at h; subst h; exact ⟨rfl, rfl⟩
  | panic p => cases h
  | diverge => cases h

/-- Where a failing operation leaves a reader of a release build. -/
theorem perform_fault {op : ReaderOp} {r : Reader} {c : Cursor} (h : StandsF false r c) {e : Error}
    (he : (perform op r).1 = .error e) (hf : IsFault e) :
    ∃ c', FaultStep c op c' ∧ StandsF false (perform op r).2 c' := by
  have ho : Open false c := .inl rfl
  cases op with
  | read =>
    obtain ⟨h1, h2⟩ := answer_error (by simp) he
    rcases read_F h ho with ⟨e', r', a1, a2⟩ | ⟨r', a1, a2⟩
    · exact ⟨c, .read c, by rw [perform, h2, a1]; exact a2⟩
    · rw [a1] at h1; cases h1
  | readChars n =>
    obtain ⟨h1, h2⟩ := answer_error (by simp) he
    rcases readChars_F h ho n with ⟨e', r', a1, a2⟩ | ⟨cs, r', a1, a2⟩
    · exact ⟨c, .readChars c n, by rw [perform, h2, a1]; exact a2⟩
    · rw [a1] at h1; cases h1
  | readAll =>
    obtain ⟨h1, h2⟩ := answer_error (by simp) he
    obtain ⟨k, a1, a2⟩ := readAllLoop_F h ho e h1
    exact ⟨_, .readAll c k a1, by rw [perform, h2]; exact a2⟩
  | peek n =>
    obtain ⟨h1, h2⟩ := answer_error (by simp) he
    obtain ⟨k, m, a1, a2, a3⟩ := peek_F h n h1
    exact ⟨_, .peek c n k m a1.1 a1.2 a2, by rw [perform, h2]; exact a3⟩
  | prefixMatches p =>
    obtain ⟨h1, h2⟩ := answer_error (by simp) he
    obtain ⟨k, m, a1, a2, a3⟩ := prefixMatches_F h p h1
    exact ⟨_, .prefixMatches c p k m a1.1 a1.2 a2, by rw [perform, h2]; exact a3⟩
  | isEof =>
    obtain ⟨h1, h2⟩ := answer_error (by simp) he
    obtain ⟨m, a1, a2⟩ := isEof_F h h1
    exact ⟨_, .isEof c m a1, by rw [perform, h2]; exact a2⟩
  | skip n =>
    obtain ⟨h1, h2⟩ := answer_error (by simp) he
    have h3 : (Reader.skipLoop n n r).1 = .err e ∧ (Reader.skip n r).2 = (Reader.skipLoop n n r).2 := by
      unfold Reader.skip at h1 ⊢
      simp only [RM.bind_run] at h1 ⊢
      generalize Reader.skipLoop n n r = x at h1
      obtain ⟨x, r'⟩ := x
      cases x <;> simp_all
    obtain ⟨k, a1, a2, a3⟩ := skipLoop_F h ho e h3.1
    exact ⟨_, .skip c n k a1 a2, by rw [perform, h2, h3.2]; exact a3⟩
  | mark =>
    obtain ⟨h1, _⟩ := answer_error (by simp) he
    obtain ⟨m, r', a1, _⟩ := mark_F h
    rw [a1] at h1; cases h1
  | resetToMark m =>
    obtain ⟨h1, _⟩ := answer_error (by simp) he
    rcases perform_passes (.resetToMark m) r with ⟨_, _, _, h2⟩ | ⟨h2, _⟩
    · have hr : faultsOf (perform (.resetToMark m) r).2 = faultsOf r := by
        rcases h3 : Reader.resetToMark m r with ⟨x, r'⟩
        have h4 := congrArg (fun x => faultsOf x.2) h3
        simp only at h4
        have h5 : faultsOf (Reader.resetToMark m r).2 = faultsOf r := rfl
        rw [perform, h3]
        cases x <;> exact h4.symm.trans h5
      rw [hr] at h2
      exact absurd (congrArg List.length h2) (by simp)
    · have hc := congrArg Prod.fst h2
      rw [he] at hc
      obtain ⟨a, r1, c1, b1, b2, _⟩ := perform_rep (r := steady r) (rel_release h.2 ▸ rel_rep h.1) (.resetToMark m)
        (by rw [h.2]; simp)
      rw [b1] at hc; simp only at hc; subst hc
      cases b2
      obtain ⟨_, _, hf⟩ := hf; cases hf
  | unmark m =>
    obtain ⟨h1, _⟩ := answer_error (by simp) he
    have h2 := unmark_steady m r
    obtain ⟨a, r1, c1, b1, b2, _⟩ := perform_rep (r := steady r) (rel_release h.2 ▸ rel_rep h.1) (.unmark m)
      (by rw [h.2]; simp)
    rw [perform, h2, h1] at b1
    simp only [answer, Prod.mk.injEq] at b1
    obtain ⟨b1, _⟩ := b1; subst b1
    cases b2
    obtain ⟨_, _, hf⟩ := hf; cases hf
  | location => obtain ⟨h1, _⟩ := answer_error (by simp) he; cases h1

theorem performAll_faulty (ops : List ReaderOp) : ∀ {r : Reader} {c : Cursor}, StandsF false r c →
    ∃ c', FaultySteps c (faultsOf r) ops (performAll ops r).1 c' (faultsOf (performAll ops r).2) ∧
      StandsF false (performAll ops r).2 c' := by
  induction ops with
  | nil => intro r c h; exact ⟨c, .nil c _, h⟩
  | cons op ops ih =>
    intro r c h
    rcases perform_passes op r with ⟨below, code, h1, h2⟩ | ⟨h1, h2⟩
    · obtain ⟨c1, h3, h4⟩ := perform_fault h h1 ⟨below, code, rfl⟩
      obtain ⟨c2, h5, h6⟩ := ih h4
      refine ⟨c2, ?_, h6⟩
      have hl : (perform op r).2.buffer.location = c1.location := h4.1.loc
      have hp : performAll (op :: ops) r =
          ((perform op r).1 :: (performAll ops (perform op r).2).1, (performAll ops (perform op r).2).2) := rfl
      rw [hp, h2]
      simp only
      rw [h1, hl]
      exact .fault h3 h5
    · obtain ⟨a, r1, c1, b1, b2, b3, b4⟩ := perform_rep (r := steady r) (rel_release h.2 ▸ rel_rep h.1) op
        (by rw [h.2]; simp)
      rw [h1] at b1
      simp only [Prod.mk.injEq] at b1
      obtain ⟨rfl, rfl⟩ := b1
      have h3 : StandsF false (perform op r).2 c1 := ⟨b3.toRep, b4.trans h.2⟩
      obtain ⟨c2, h5, h6⟩ := ih h3
      refine ⟨c2, ?_, h6⟩
      have hp : performAll (op :: ops) r =
          ((perform op r).1 :: (performAll ops (perform op r).2).1, (performAll ops (perform op r).2).2) := rfl
      rw [hp, ← h2]
      exact .step b2 h5

/-- A source that supplies a text delivers it when it does not fail. -/
theorem supplies_steady {s : Source} {text : Str} {faults : List Nat} (h : Supplies s text faults) (location : Location)
    (dbg : Bool) : StandsF dbg (Reader.withLocation location s dbg) ⟨location, text, 0, []⟩ ∧
      faultsOf (Reader.withLocation location s dbg) = faults := by
  obtain ⟨more, h1, rfl⟩ := h
  have key : ∀ {rounds more faults}, SuppliesIn rounds more faults →
      (∃ pieces : List Str, steadyRounds rounds = pieces.map .ok ∧ more = pieces.flatten) ∧ faultsIn rounds = faults := by
    intro rounds more faults h
    induction h with
    | nil => exact ⟨⟨[], rfl, rfl⟩, rfl⟩
    | @piece cs rounds text faults _ ih =>
      obtain ⟨⟨pieces, h1, h2⟩, h3⟩ := ih
      cases cs with
      | nil => exact ⟨⟨pieces, h1, h2⟩, h3⟩
      | cons ch cs => exact ⟨⟨(ch :: cs) :: pieces, by simp [steadyRounds, h1], by simp [h2]⟩, h3⟩
    | fault _ ih =>
      obtain ⟨h1, h3⟩ := ih
      exact ⟨h1, by simp [faultsIn, h3]⟩
  obtain ⟨⟨pieces, h2, h3⟩, h4⟩ := key h1
  refine ⟨⟨(new_rep (s := ⟨s.pending, steadyRounds s.rounds, s.location⟩) ⟨pieces, h2, by rw [h3]⟩ dbg).toRep, rfl⟩, h4⟩

/-! ## Fuel -/

/-- The second has the results of the first. -/
def Below (f f' : RM Reader α) : Prop := ∀ r, (f r).1 = .diverge ∨ f' r = f r

theorem below_refl (f : RM Reader α) : Below f f := fun _ => .inr rfl

theorem below_diverge (f : RM Reader α) : Below (RM.lift .diverge) f := fun _ => .inl rfl

theorem below_bind {f f' : RM Reader α} {k k' : α → RM Reader β} (hf : Below f f') (hk : ∀ a, Below (k a) (k' a)) :
    Below (f >>= k) (f' >>= k') := by
  intro r
  simp only [RM.bind_run]
  rcases hf r with h | h
  · left
    generalize f r = x at h
    obtain ⟨x, r1⟩ := x
    simp only at h; subst h; rfl
  · rw [h]
    generalize f r = x
    obtain ⟨x, r1⟩ := x
    cases x with
    | ok a => exact hk a r1
    | _ => exact .inr rfl

theorem below_loop {body body' : Run} (hb : Below body body') (min max fuel : Nat) : ∀ {fuel' i temp}, fuel ≤ fuel' →
    Below (repetitionLoop body min max fuel i temp) (repetitionLoop body' min max fuel' i temp) := by
  induction fuel with
  | zero => intro _ _ _ _; exact below_diverge _
  | succ fuel ih =>
    intro fuel' i temp hle
    obtain ⟨n, rfl⟩ : ∃ n, fuel' = n + 1 := ⟨fuel' - 1, by omega⟩
    unfold repetitionLoop
    by_cases hi : i < max
    · simp only [if_pos hi]
      refine below_bind (below_refl _) fun l => below_bind (below_refl _) fun m => below_bind hb fun x => ?_
      obtain ⟨p, evs⟩ := x
      cases p with
      | notThisWay e => exact below_refl _
      | proceed =>
        refine below_bind (below_refl _) fun l' => ?_
        by_cases hc : max = u32Max ∧ l' = l
        · simp only [if_pos hc]; exact below_refl _
        · simp only [if_neg hc]; exact ih (by omega)
    · simp only [if_neg hi]; exact below_refl _

theorem below_or {run run' : Nat → Run} (hr : ∀ a, Below (run a) (run' a)) (subs : List Nat) : ∀ errors,
    Below (orLoop run subs errors) (orLoop run' subs errors) := by
  induction subs with
  | nil => intro _; exact below_refl _
  | cons a l ih =>
    intro errors
    unfold orLoop
    refine below_bind (below_refl _) fun m => below_bind (hr a) fun x => ?_
    obtain ⟨p, evs⟩ := x
    cases p with
    | proceed => exact below_refl _
    | notThisWay e => exact below_bind (below_refl _) fun _ => ih _

theorem below_exception {g : Graph} {addr : Nat} {runF runF' runX runX' : Run} (hf : Below runF runF')
    (hx : Below runX runX') : Below (scanException g addr runF runX) (scanException g addr runF' runX') := by
  unfold scanException
  refine below_bind (below_refl _) fun b => below_bind (below_refl _) fun m => below_bind hf fun x => ?_
  obtain ⟨p, evs⟩ := x
  cases p with
  | notThisWay e => exact below_refl _
  | proceed =>
    refine below_bind (below_refl _) fun l => below_bind (below_refl _) fun _ => below_bind (below_refl _) fun m' =>
      below_bind (below_refl _) fun r => below_bind (below_refl _) fun buf => below_bind (below_refl _) fun here => ?_
    by_cases hd : (r.buffer.dbg && decide (here ≠ l)) = true
    · simp only [if_pos hd]; exact below_refl _
    · simp only [if_neg hd]
      refine below_bind (fun r1 => ?_) fun _ => below_refl _
      have hb : Below
          (do
            let (p, _) ← runX
            match p with
            | .proceed => Reader.isEof
            | .notThisWay _ => pure false : RM Reader Bool)
          (do
            let (p, _) ← runX'
            match p with
            | .proceed => Reader.isEof
            | .notThisWay _ => pure false) := below_bind hx fun _ => below_refl _
      rcases hb (Reader.withLocation b (Source.buffered buf) r.buffer.dbg) with h | h
      · exact .inl h
      · right
        simp only [RM.lift_run]
        exact congrArg (fun z => (z.1, r1)) h

theorem below_special {g : Graph} {addr : Nat} {instr : Instruction} {scanner : SpecialScanner} {run run' : Nat → Run}
    (hr : ∀ a, Below (run a) (run' a)) :
    Below (scanSpecial g addr instr scanner run) (scanSpecial g addr instr scanner run') := by
  unfold scanSpecial
  refine below_bind (below_refl _) fun m => below_bind (below_refl _) fun x => ?_
  cases x with
  | «match» evs => exact below_refl _
  | unmatch => exact below_refl _
  | forward name =>
    simp only
    cases g.indexOfLabel name with
    | none => exact below_refl _
    | some a => exact below_bind (below_refl _) fun _ => below_bind (hr a) fun _ => below_refl _

theorem below_step {g : Graph} {run run' : Nat → Run} (hr : ∀ a, Below (run a) (run' a)) {fuel fuel' : Nat}
    (hle : fuel ≤ fuel') (addr : Nat) (instr : Instruction) :
    Below (execStep g run fuel addr instr) (execStep g run' fuel' addr instr) := by
  unfold execStep
  cases instr.step with
  | repetition min max sub => exact below_loop (hr sub) min max fuel hle
  | or subs => exact below_bind (below_or hr subs _) fun _ => below_refl _
  | alias name =>
    simp only
    cases g.indexOfLabel name with
    | none => exact below_refl _
    | some a =>
      simp only
      cases g.canonicalName name with
      | none => exact below_refl _
      | some label => exact below_bind (below_refl _) fun _ => below_bind (hr a) fun _ => below_refl _
  | scan sc =>
    cases sc with
    | terminal s => exact below_refl _
    | empty => exact below_refl _
    | special scanner => exact below_special hr
    | exception f x => exact below_exception (hr f) (hr x)

theorem below_run (g : Graph) (fuel : Nat) : ∀ {fuel' next}, fuel ≤ fuel' →
    Below (runFrom g fuel next) (runFrom g fuel' next) := by
  induction fuel with
  | zero => intro _ _ _; exact below_diverge _
  | succ fuel ih =>
    intro fuel' next hle
    obtain ⟨n, rfl⟩ : ∃ n, fuel' = n + 1 := ⟨fuel' - 1, by omega⟩
    cases next with
    | none => exact below_refl _
    | some addr =>
      unfold runFrom
      cases g.instruction addr with
      | none => exact below_refl _
      | some instr =>
        refine below_bind (below_step (fun a => ih (by omega)) (by omega) addr instr) fun x => ?_
        obtain ⟨p, evs⟩ := x
        cases p with
        | notThisWay e => exact below_refl _
        | proceed => exact below_bind (ih (by omega)) fun _ => below_refl _

/-- A result stays the result with more fuel. -/
theorem parse_mono (m : Machine) {fuel fuel' : Nat} (h : fuel ≤ fuel') (r : Reader) :
    (m.parse fuel r).1 = .diverge ∨ m.parse fuel' r = m.parse fuel r :=
  below_bind (below_run m.graph fuel h) (fun _ => below_refl _) r

theorem returns_of_fuel {m : Machine} {r : Reader} {fuel : Nat} {x : Res (List Event)} (h : (m.parse fuel r).1 = x)
    (hx : x ≠ .diverge) : Returns m r x := by
  refine ⟨hx, fuel, fun fuel' hle => ?_⟩
  rcases parse_mono m hle r with h1 | h1
  · exact absurd (h.symm.trans h1) hx
  · rw [h1, h]

/-- What is returned is one thing. -/
theorem returns_unique {m : Machine} {r : Reader} {x x' : Res (List Event)} (h : Returns m r x) (h' : Returns m r x') : x = x' := by
  obtain ⟨_, f, h1⟩ := h
  obtain ⟨_, f', h2⟩ := h'
  rw [← h1 (max f f') (Nat.le_max_left _ _), h2 (max f f') (Nat.le_max_right _ _)]

/-! ## Parsers -/

theorem reporting_parser {G : Language} {start : SyntaxRule} {m : Machine} (h : ReportingParser dbg G start m) :
    ParserFor dbg G start m := by
  obtain ⟨⟨s, config, g, query, h1, h2, _, h3, h4, h5⟩, h6, h7, _⟩ := h
  exact ⟨⟨s, config, g, query, h1, h2, h3, h4, h5⟩, h6, h7⟩

theorem reporting_graph {G : Language} {start : SyntaxRule} {m : Machine} (h : ReportingParser dbg G start m) :
    GraphReports (semOf dbg) m.graph := by
  obtain ⟨⟨s, config, g, query, h1, h2, h0, h3, h4, h5⟩, h6, h7, hd⟩ := h
  obtain ⟨g', h8, h9⟩ := compile_ok (fun l s => (h2 l s).2) h1 h6
  rw [h3] at h8; injection h8 with h8; subst h8
  have hm : m.graph = g := by
    unfold Machine.new at h5
    cases ha : g.indexOfLabel ('$' :: query) with
    | none => rw [ha] at h5; simp at h5
    | some a =>
      rw [ha] at h5
      simp only at h5
      cases hn : g.canonicalName query with
      | none => rw [hn] at h5; simp at h5
      | some n => rw [hn] at h5; simp at h5; subst h5; rfl
  subst hm
  intro addr instr scanner hi hst
  obtain ⟨_, hx⟩ := h9.closed instr (List.mem_of_getElem? hi)
  rw [hst] at hx
  obtain ⟨l, t, rfl⟩ := hx
  refine ⟨h0 l t, ?_⟩
  rw [semOf_eq (h2 l t).1]
  exact hd l t

/-- Parsing over a failing source, compared with parsing the same text over a source that does not fail. -/
theorem parse_compared {G : Language} {start : SyntaxRule} {m m' : Machine} (hp : ReportingParser dbg G start m)
    (hp' : ParserFor dbg G start m') {r r' : Reader} {c : Cursor} (h : StandsF dbg r c) {here : Location} {text : Str}
    (hi : InputAt dbg r' here text) (h1 : here = c.location) (h2 : text = c.rest) :
    (∀ x, Returns m r x → (∃ e, x = .err e ∧ IsFault e) ∨ Returns m' r' x ∨ ∃ e e', x = .err e ∧ Returns m' r' (.err e')) ∧
      (Loops m r → Loops m' r') := by
  have hs := reporting_parser hp
  obtain ⟨config, _, hb, _⟩ := parser_linked hs
  subst h1 h2
  have hclean : ∀ x fuel, (m.parse fuel (steady r)).1 = x → x ≠ .diverge → Returns m' r' x := by
    intro x fuel h3 h4
    rw [returns_iff hp' hi]
    exact (parse_iff hs h.1 h.2 x h4).mp ⟨fuel, h3⟩
  constructor
  · rintro x ⟨hx, f, hf⟩
    have hfx := hf f (Nat.le_refl _)
    rcases parse_faults hb (reporting_graph hp) f h with ⟨e, a1, a2⟩ | a1 | ⟨e, e', a1, a2⟩
    · exact .inl ⟨e, hfx.symm.trans a1, a2⟩
    · exact .inr (.inl (hclean x f (a1.symm.trans hfx) hx))
    · exact .inr (.inr ⟨e, e', hfx.symm.trans a1, hclean _ f a2 (by simp)⟩)
  · intro hl
    rw [loops_iff hp' hi]
    intro x hx
    obtain ⟨f, hf⟩ := (parse_iff hs h.1 h.2 x (parses_ne_diverge hx)).mpr hx
    rcases parse_faults hb (reporting_graph hp) f h with ⟨e, a1, a2⟩ | a1 | ⟨e, e', a1, a2⟩
    · rw [hl f] at a1; cases a1
    · rw [hl f, hf] at a1; exact parses_ne_diverge hx a1.symm
    · rw [hl f] at a1; cases a1

end Ebnf
