import Verif.Model.Stack
import Verif.Proofs.Complete
import Verif.Proofs.PureSims

set_option autoImplicit false
set_option linter.unusedSectionVars false

/-! # The machine with a bounded call stack -/

namespace Ebnf

open Spec

/-! ## Without reader -/

/-- The stack is exhausted. -/
abbrev overflow : Outcome := .panic .stackOverflow

/-- `runDeep` without reader. -/
def prunDeep (sem : SpecialScanner → Recognizer) (g : Graph) : Nat → Nat → Option Nat → PRun
  | _, 0, _, _, _ => none
  | _, _ + 1, none, _, _ => some (.ok [] 0)
  | room, fuel + 1, some addr, here, rest =>
    match g.instruction addr with
    | none => some (.panic .missing)
    | some instr =>
      match pexec sem g (fun a => if room = 0 then fun _ _ => some overflow else prunDeep sem g (room - 1) fuel (some a))
          fuel addr instr here rest with
      | some (.ok evs n) =>
        (prunDeep sem g room fuel instr.next (lineColumn here (rest.take n)) (rest.drop n)).map (.after evs n)
      | o => o

/-- A call. -/
def pcall (sem : SpecialScanner → Recognizer) (g : Graph) (room fuel : Nat) (a : Nat) : PRun :=
  if room = 0 then fun _ _ => some overflow else prunDeep sem g (room - 1) fuel (some a)

theorem pcall_zero {sem : SpecialScanner → Recognizer} {g : Graph} {fuel a : Nat} {here : Location} {rest : Str} :
    pcall sem g 0 fuel a here rest = some overflow := rfl

theorem pcall_succ {sem : SpecialScanner → Recognizer} {g : Graph} {room fuel a : Nat} {here : Location} {rest : Str} :
    pcall sem g (room + 1) fuel a here rest = prunDeep sem g room fuel (some a) here rest := rfl

section Sims
variable {dbg : Bool}

theorem sims_noRoom : Sims dbg noRoom (fun _ _ => some overflow) := fun _ _ _ => rfl

/-- The machine on a reader is the pure machine. -/
theorem sims_deep {sem : SpecialScanner → Recognizer} {g : Graph} (hg : GraphBehaves dbg sem g) (fuel : Nat) :
    ∀ room next, Sims dbg (runDeep g room fuel next) (prunDeep sem g room fuel next) := by
  induction fuel with
  | zero => intro room next r c h; rfl
  | succ fuel ih =>
    intro room next r c h
    cases next with
    | none => exact ⟨rfl, by simp, [], h⟩
    | some addr =>
      unfold runDeep prunDeep
      cases hi : g.instruction addr with
      | none => rfl
      | some instr =>
        simp only [RM.bind_run]
        have hcall : ∀ a, Sims dbg (if room = 0 then noRoom else runDeep g (room - 1) fuel (some a))
            (if room = 0 then fun _ _ => some overflow else prunDeep sem g (room - 1) fuel (some a)) := by
          intro a
          by_cases h0 : room = 0
          · rw [if_pos h0, if_pos h0]; exact sims_noRoom
          · rw [if_neg h0, if_neg h0]; exact ih _ _
        have ha := sims_step hg hcall fuel addr instr hi r c h
        generalize execStep g _ fuel addr instr r = x at ha
        generalize pexec sem g _ fuel addr instr c.location c.rest = o at ha
        obtain ⟨res, r1⟩ := x
        cases o with
        | none => have : res = .diverge := ha; subst this; rfl
        | some o =>
          cases o with
          | ok evs n =>
            obtain ⟨a1, a2, own, a3⟩ := ha
            simp only at a1; subst a1
            have hb := agrees_shift a2 (ih room instr.next r1 _ a3)
            rw [moved_location a2, moved_rest] at hb
            simp only [RM.bind_run]
            generalize runDeep g room fuel instr.next r1 = y at hb
            generalize prunDeep sem g room fuel instr.next (lineColumn c.location (c.rest.take n)) (c.rest.drop n) = o at hb
            obtain ⟨resy, r2⟩ := y
            cases o with
            | none => have : resy = .diverge := hb; subst this; rfl
            | some o =>
              cases o with
              | ok evs' k => obtain ⟨b1, b2⟩ := hb; simp only at b1; subst b1; exact ⟨rfl, b2⟩
              | fail e evs' k => obtain ⟨b1, b2⟩ := hb; simp only at b1; subst b1; exact ⟨rfl, b2⟩
              | abort e => obtain ⟨b1, b2⟩ := hb; simp only at b1; subst b1; exact ⟨rfl, b2⟩
              | panic q => have : resy = .panic q := hb; subst this; rfl
          | fail e evs k => obtain ⟨a1, a2⟩ := ha; simp only at a1; subst a1; exact ⟨rfl, a2⟩
          | abort e => obtain ⟨a1, a2⟩ := ha; simp only at a1; subst a1; exact ⟨rfl, a2⟩
          | panic q => have : res = .panic q := ha; subst this; rfl

/-- The end of a parse, from the outcome of the start rule. -/
def conclude (dbg : Bool) (here : Location) (rest : Str) : Option Outcome → Res (List Event)
  | none => .diverge
  | some (.ok evs n) =>
    if n = rest.length then if dbg && !labelsAgree evs then .panic .debugAssert else .ok (removeEmpty evs)
    else .err (expectedAt "EOF".toList (lineColumn here (rest.take n)) (rest.drop n))
  | some (.fail e _ _) => .err e
  | some (.abort e) => .err e
  | some (.panic p) => .panic p

theorem conclude_prun {sem : SpecialScanner → Recognizer} {m : Machine} {fuel : Nat} {here : Location} {rest : Str} :
    pparse dbg sem m fuel here rest = conclude dbg here rest (prun sem m.graph fuel (some m.entry) here rest) := by
  unfold pparse conclude
  cases prun sem m.graph fuel (some m.entry) here rest with
  | none => rfl
  | some o => cases o <;> rfl

theorem parse_deep {sem : SpecialScanner → Recognizer} {m : Machine} (hg : GraphBehaves dbg sem m.graph) (frames fuel : Nat)
    {r : Reader} {c : Cursor} (h : Stands dbg r c) :
    (m.parseDeep frames fuel r).1 = conclude dbg c.location c.rest (pcall sem m.graph frames fuel m.entry c.location c.rest) := by
  have ha : Sims dbg (callDeep m.graph frames fuel m.entry) (pcall sem m.graph frames fuel m.entry) := by
    unfold pcall callDeep
    by_cases h0 : frames = 0
    · rw [if_pos h0, if_pos h0]; exact sims_noRoom
    · rw [if_neg h0, if_neg h0]; exact sims_deep hg fuel _ _
  have ha := ha r c h
  unfold Machine.parseDeep conclude
  simp only [RM.bind_run]
  generalize callDeep m.graph frames fuel m.entry r = x at ha
  generalize pcall sem m.graph frames fuel m.entry c.location c.rest = o at ha
  obtain ⟨res, r1⟩ := x
  cases o with
  | none => have : res = .diverge := ha; subst this; rfl
  | some o =>
    cases o with
    | ok evs n =>
      obtain ⟨a1, a2, own, a3⟩ := ha
      simp only at a1; subst a1
      obtain ⟨r2, b1, b2'⟩ := isEof_at a3
      simp only [RM.bind_run, b1, moved_rest]
      have he : c.rest.drop n = [] ↔ n = c.rest.length := by
        rw [List.drop_eq_nil_iff]; omega
      by_cases hn : n = c.rest.length
      · rw [decide_eq_true (he.mpr hn), if_pos rfl, if_pos hn]
        simp only [RM.bind_run, RM.get_run, b2'.2]
        cases dbg && !labelsAgree evs <;> rfl
      · rw [decide_eq_false (fun hc => hn (he.mp hc)), if_neg hn]
        simp only [Bool.false_eq_true, if_false]
        obtain ⟨r3, b4, b5⟩ := errExpected_at (g := m.graph) (current := none) b2'
        simp only [RM.bind_run, b4, RM.lift_run, moved_location a2, moved_rest]
        rfl
    | fail e evs k => obtain ⟨a1, a2⟩ := ha; simp only at a1; subst a1; rfl
    | abort e => obtain ⟨a1, a2⟩ := ha; simp only at a1; subst a1; rfl
    | panic q => have : res = .panic q := ha; subst this; rfl

end Sims

/-! ## Every run ends, with the meaning or with an exhausted stack -/

/-- What follows an instruction. -/
def continDeep (sem : SpecialScanner → Recognizer) (g : Graph) (room f : Nat) (bare : Bool) (next : Option Nat)
    (here : Location) (rest : Str) : Outcome → Option Outcome
  | .ok evs n => if bare then some (.ok evs n)
    else (prunDeep sem g room f next (lineColumn here (rest.take n)) (rest.drop n)).map (.after evs n)
  | o => some o

theorem continDeep_bare {sem : SpecialScanner → Recognizer} {g : Graph} {room f : Nat} {next : Option Nat} {here : Location}
    {rest : Str} (o : Outcome) : continDeep sem g room f true next here rest o = some o := by
  cases o <;> rfl

theorem continDeep_none {sem : SpecialScanner → Recognizer} {g : Graph} {room f : Nat} {bare : Bool} {here : Location}
    {rest : Str} (o : Outcome) : continDeep sem g room (f + 1) bare none here rest o = some o := by
  cases o with
  | ok evs n => simp [continDeep, prunDeep, Outcome.after]
  | _ => rfl

theorem prunDeep_succ {sem : SpecialScanner → Recognizer} {g : Graph} {i : Nat} {x : Instruction}
    (h : g.instructions[i]? = some x) (room f : Nat) (here : Location) (rest : Str) :
    prunDeep sem g room (f + 1) (some i) here rest =
      (pexec sem g (pcall sem g room f) f i x here rest).bind (continDeep sem g room f false x.next here rest) := by
  have h' : g.instruction i = some x := h
  rw [prunDeep, h']
  simp only
  have : (fun a => if room = 0 then fun _ _ => some overflow else prunDeep sem g (room - 1) f (some a)) = pcall sem g room f := rfl
  rw [this]
  cases pexec sem g (pcall sem g room f) f i x here rest with
  | none => rfl
  | some o => cases o <;> rfl

/-- What suffices for a part of the grammar: `Fits room part n` says that `room` nested calls are enough for the part on `n` characters. -/
structure Suffices (G : Language) (Fits : Nat → Task → Nat → Prop) : Prop where
  shorter : ∀ {d t n n'}, Fits d t n → n' ≤ n → Fits d t n'
  optional : ∀ {d loc l n}, Fits d (.primary (.optional loc l)) n → ∃ d', d = d' + 1 ∧ Fits d' (.list l) n
  repeated : ∀ {d loc l n}, Fits d (.primary (.repeated loc l)) n → ∃ d', d = d' + 1 ∧ Fits d' (.list l) n
  grouped : ∀ {d loc l n}, Fits d (.primary (.grouped loc l)) n → Fits d (.list l) n
  reference : ∀ {d loc name n r}, r ∈ G.rules → SameName r.metaIdentifier name → Fits d (.primary (.metaIdentifier loc name)) n →
    ∃ d', d = d' + 1 ∧ Fits d' (.list r.definitionList) n
  forward : ∀ {d loc s here rest name k task}, G.special loc s loc here rest = .forward name k → ForwardTarget G name task →
    Fits d (.primary (.specialSequence loc s)) rest.length → ∃ d', d = d' + 1 ∧ Fits d' task (rest.drop k).length
  once : ∀ {d p n}, Fits d (.factor (.mk 1 p)) n → Fits d (.primary p) n
  counted : ∀ {d k p n}, k ≠ 0 → k ≠ 1 → Fits d (.factor (.mk k p)) n → ∃ d', d = d' + 1 ∧ Fits d' (.primary p) n
  plain : ∀ {d f n}, Fits d (.term (.plain f)) n → Fits d (.factor f) n
  except : ∀ {d f x n}, Fits d (.term (.except f x)) n → ∃ d', d = d' + 1 ∧ Fits d' (.factor f) n ∧ Fits d' (.factor x) n
  first : ∀ {d t ts n}, Fits d (.sequence (.cons t ts)) n → Fits d (.term t) n
  later : ∀ {d t ts here rest evs k}, Fits d (.sequence (.cons t ts)) rest.length → ¬ IsBareGroup t →
    Ev asBuilt G (.term t) here rest (.ok evs k) → Fits d (.sequence ts) (rest.drop k).length
  single : ∀ {d x n}, Fits d (.list (.cons x .nil)) n → Fits d (.sequence x) n
  choice : ∀ {d x y l n}, Fits d (.list (.cons x (.cons y l))) n →
    ∃ d', d = d' + 1 ∧ ∀ z ∈ (DefinitionList.cons x (.cons y l)).toList, Fits d' (.sequence z) n

/-- The outcome is the meaning; or the stack is exhausted, and then there was not enough of it. -/
def MeaningOr (G : Language) (enough : Prop) (task : Task) (here : Location) (rest : Str) (o : Outcome) : Prop :=
  (o = overflow ∧ ¬ enough) ∨ Ev asBuilt G task here rest o

/-- The fuel-indexed run ends with a good outcome. -/
def EndsWell (G : Language) (p : Nat → PRun) (enough : Nat → Prop) (task : Task) : Prop :=
  ∀ here rest, ∃ o f0, (∀ f, f0 ≤ f → p f here rest = some o) ∧ MeaningOr G (enough rest.length) task here rest o

theorem meaningOr_weaken {G : Language} {e e' : Prop} {task : Task} {here : Location} {rest : Str} {o : Outcome} (h : MeaningOr G e task here rest o)
    (he : e' → e) : MeaningOr G e' task here rest o := h.imp (fun h => ⟨h.1, fun h' => h.2 (he h')⟩) id

section Halt
variable {config : Config} {G : Language} {sem : SpecialScanner → Recognizer} {g : Graph} {Fits : Nat → Task → Nat → Prop}

theorem loop_halts {body : Task} {p : Nat → PRun} {enough : Nat → Prop} (mono : ∀ n n', enough n → n' ≤ n → enough n')
    (h : EndsWell G p enough body) (min max : Nat) : ∀ k i, max - i = k → ∀ here rest, ∃ o f0,
      (∀ f f', f0 ≤ f → f0 ≤ f' → ploop (p f) min max f' i here rest = some o) ∧
      MeaningOr G (i < max → enough rest.length) (.rounds body min (some max) (decide (max = u32Max)) i) here rest o := by
  intro k
  induction k with
  | zero =>
    intro i hk here rest
    refine ⟨.ok [] 0, 1, fun f f' _ hf' => ?_, .inr (.enough (by omega))⟩
    obtain ⟨k, rfl⟩ : ∃ k, f' = k + 1 := ⟨f' - 1, by omega⟩
    rw [ploop, if_neg (by omega)]
  | succ k ih =>
    intro i hk here rest
    have hi : i < max := by omega
    have hm : ∀ m, some max = some m → i < m := by intro m hm; injection hm with hm; omega
    obtain ⟨o1, f0, h1, h2⟩ := h here rest
    rcases h2 with ⟨rfl, h2⟩ | h2
    · refine ⟨overflow, f0 + 1, fun f f' hf hf' => ?_, .inl ⟨rfl, fun hx => h2 (hx hi)⟩⟩
      obtain ⟨k, rfl⟩ : ∃ k, f' = k + 1 := ⟨f' - 1, by omega⟩
      rw [ploop, if_pos hi, h1 f (by omega)]
    · cases o1 with
      | abort e =>
        refine ⟨.abort e, f0 + 1, fun f f' hf hf' => ?_, .inr (.roundStop hm h2 trivial)⟩
        obtain ⟨k, rfl⟩ : ∃ k, f' = k + 1 := ⟨f' - 1, by omega⟩
        rw [ploop, if_pos hi, h1 f (by omega)]
      | panic e =>
        refine ⟨.panic e, f0 + 1, fun f f' hf hf' => ?_, .inr (.roundStop hm h2 trivial)⟩
        obtain ⟨k, rfl⟩ : ∃ k, f' = k + 1 := ⟨f' - 1, by omega⟩
        rw [ploop, if_pos hi, h1 f (by omega)]
      | fail e evs n =>
        by_cases hmin : i < min
        · refine ⟨.fail e [] n, f0 + 1, fun f f' hf hf' => ?_, .inr (.tooFew hm hmin h2)⟩
          obtain ⟨k, rfl⟩ : ∃ k, f' = k + 1 := ⟨f' - 1, by omega⟩
          rw [ploop, if_pos hi, h1 f (by omega)]
          simp only [if_pos hmin]
        · refine ⟨.ok evs 0, f0 + 1, fun f f' hf hf' => ?_, .inr (.lastRound (q := asBuilt) hm (by omega) h2)⟩
          obtain ⟨k, rfl⟩ : ∃ k, f' = k + 1 := ⟨f' - 1, by omega⟩
          rw [ploop, if_pos hi, h1 f (by omega)]
          simp only [if_neg hmin]
      | ok evs n =>
        by_cases hz : max = u32Max ∧ n = 0
        · refine ⟨.abort ⟨here, .livelock⟩, f0 + 1, fun f f' hf hf' => ?_, .inr ?_⟩
          · obtain ⟨k, rfl⟩ : ∃ k, f' = k + 1 := ⟨f' - 1, by omega⟩
            rw [ploop, if_pos hi, h1 f (by omega)]
            simp only [if_pos hz]
          · obtain ⟨hz1, hz2⟩ := hz
            subst hz2
            rw [decide_eq_true hz1]
            exact .livelock hm h2
        · obtain ⟨o2, f1, h3, h4⟩ := ih (i + 1) (by omega) (lineColumn here (rest.take n)) (rest.drop n)
          refine ⟨o2.afterRound evs n, f0 + f1 + 1, fun f f' hf hf' => ?_, ?_⟩
          · obtain ⟨k, rfl⟩ : ∃ k, f' = k + 1 := ⟨f' - 1, by omega⟩
            rw [ploop, if_pos hi, h1 f (by omega)]
            simp only [if_neg hz, h3 f k (by omega) (by omega), Option.map_some]
          · rcases h4 with ⟨rfl, h4⟩ | h4
            · refine .inl ⟨rfl, fun hx => h4 (fun _ => mono _ _ (hx hi) ?_)⟩
              rw [List.length_drop]; omega
            · exact .inr (.round hm (by simpa using hz) h2 h4)

theorem por_halts {run : Nat → Nat → PRun} {enough : SingleDefinition → Nat → Prop}
    (h : ∀ x a, CodeTerms config G g.instructions (some a) x → EndsWell G (fun f => run f a) (enough x) (.sequence x)) :
    ∀ (l : DefinitionList) (subs : List Nat), l ≠ .nil → CodeSubs config G g.instructions subs l →
      EndsWell G (fun f => por (run f) subs) (fun n => ∀ z ∈ l.toList, enough z n) (.alternatives l)
  | .nil, _, hne, _ => absurd rfl hne
  | .cons d .nil, subs, _, hc => by
    intro here rest
    simp only [CodeSubs] at hc
    obtain ⟨a, more, rfl, hd, hc1, rfl⟩ := hc
    obtain ⟨o, f0, h1, h2⟩ := h d a hc1 here rest
    have hz : d ∈ (DefinitionList.cons d .nil).toList := by simp [DefinitionList.toList]
    rcases h2 with ⟨rfl, h2⟩ | h2
    · exact ⟨overflow, f0, fun f hf => by simp only [por, h1 f hf], .inl ⟨rfl, fun hx => h2 (hx d hz)⟩⟩
    · cases o with
      | fail e evs n => exact ⟨.fail e [] 0, f0, fun f hf => by simp only [por, h1 f hf], .inr (.last h2)⟩
      | ok evs n => exact ⟨_, f0, fun f hf => by simp only [por, h1 f hf], .inr (.first h2 (by simp))⟩
      | abort e => exact ⟨_, f0, fun f hf => by simp only [por, h1 f hf], .inr (.first h2 (by simp))⟩
      | panic e => exact ⟨_, f0, fun f hf => by simp only [por, h1 f hf], .inr (.first h2 (by simp))⟩
  | .cons d (.cons d' l), subs, _, hc => by
    intro here rest
    rw [CodeSubs] at hc
    obtain ⟨a, more, rfl, hd, hc1, hc2⟩ := hc
    have hc3 := hc2
    rw [CodeSubs] at hc2
    obtain ⟨b, more', rfl, hc2⟩ := hc2
    obtain ⟨o, f0, h1, h2⟩ := h d a hc1 here rest
    have hz : d ∈ (DefinitionList.cons d (.cons d' l)).toList := by simp [DefinitionList.toList]
    rcases h2 with ⟨rfl, h2⟩ | h2
    · exact ⟨overflow, f0, fun f hf => by simp only [por, h1 f hf], .inl ⟨rfl, fun hx => h2 (hx d hz)⟩⟩
    · cases o with
      | ok evs n => exact ⟨_, f0, fun f hf => by simp only [por, h1 f hf], .inr (.first h2 (by simp))⟩
      | abort e => exact ⟨_, f0, fun f hf => by simp only [por, h1 f hf], .inr (.first h2 (by simp))⟩
      | panic e => exact ⟨_, f0, fun f hf => by simp only [por, h1 f hf], .inr (.first h2 (by simp))⟩
      | fail e evs n =>
        obtain ⟨o2, f1, h3, h4⟩ := por_halts h (.cons d' l) (b :: more') (by simp) hc3 here rest
        simp only at h3
        rcases h4 with ⟨rfl, h4⟩ | h4
        · refine ⟨overflow, max f0 f1, fun f hf => by simp only [por, h1 f (by omega), h3 f (by omega)], .inl ⟨rfl, fun hx => h4 ?_⟩⟩
          intro z hz
          exact hx z (by simp only [DefinitionList.toList, List.mem_cons] at hz ⊢; exact .inr hz)
        · cases o2 with
          | fail e' evs' n' =>
            exact ⟨_, max f0 f1, fun f hf => by simp only [por, h1 f (by omega), h3 f (by omega)], .inr (.otherFail h2 h4)⟩
          | ok evs n =>
            exact ⟨_, max f0 f1, fun f hf => by simp only [por, h1 f (by omega), h3 f (by omega)], .inr (.other h2 h4 (by simp))⟩
          | abort e =>
            exact ⟨_, max f0 f1, fun f hf => by simp only [por, h1 f (by omega), h3 f (by omega)], .inr (.other h2 h4 (by simp))⟩
          | panic e =>
            exact ⟨_, max f0 f1, fun f hf => by simp only [por, h1 f (by omega), h3 f (by omega)], .inr (.other h2 h4 (by simp))⟩

/-- Enough for a call. -/
def Within (Fits : Nat → Task → Nat → Prop) (room : Nat) (task : Task) (n : Nat) : Prop := ∃ d, room = d + 1 ∧ Fits d task n

variable (config G sem g Fits) in
/-- What calls do. -/
structure Calls (room : Nat) : Prop where
  list : ∀ l a, CodeList config G g.instructions a l → EndsWell G (fun f => pcall sem g room f a) (Within Fits room (.list l)) (.list l)
  sequence : ∀ x a, CodeTerms config G g.instructions (some a) x →
    EndsWell G (fun f => pcall sem g room f a) (Within Fits room (.sequence x)) (.sequence x)
  primary : ∀ p a, CodePrimary config G g.instructions a none p →
    EndsWell G (fun f => pcall sem g room f a) (Within Fits room (.primary p)) (.primary p)
  factor : ∀ x a, CodeFactor config G g.instructions a none x →
    EndsWell G (fun f => pcall sem g room f a) (Within Fits room (.factor x)) (.factor x)

theorem calls_zero : Calls config G sem g Fits 0 := by
  have key : ∀ a task, EndsWell G (fun f => pcall sem g 0 f a) (Within Fits 0 task) task := fun a task here rest =>
    ⟨overflow, 0, fun _ _ => rfl, .inl ⟨rfl, by rintro ⟨d, h, _⟩; omega⟩⟩
  exact ⟨fun _ a _ => key a _, fun _ a _ => key a _, fun _ a _ => key a _, fun _ a _ => key a _⟩

theorem calls_task {room : Nat} (C : Calls config G sem g Fits room) {a : Nat} {task : Task}
    (hc : CodeTask config G g.instructions a task) : EndsWell G (fun f => pcall sem g room f a) (Within Fits room task) task := by
  cases task with
  | list l => exact C.list l a hc
  | primary p => exact C.primary p a hc
  | _ => exact hc.elim

/-- The code of a part, up to what follows. -/
def RunsOn (G : Language) (sem : SpecialScanner → Recognizer) (g : Graph) (Fits : Nat → Task → Nat → Prop) (room i : Nat)
    (bare : Bool) (next : Option Nat) (task : Task) : Prop :=
  ∀ here rest, ∃ o f0, (∀ f, f0 ≤ f → prunDeep sem g room (f + 1) (some i) here rest = continDeep sem g room f bare next here rest o) ∧
    MeaningOr G (Fits room task rest.length) task here rest o

/-- Execution of the instruction gives the outcome. -/
theorem step_continues {room i : Nat} {x : Instruction} (hi : g.instructions[i]? = some x) {here : Location} {rest : Str} {o : Outcome}
    {f0 : Nat} (h : ∀ f, f0 ≤ f → pexec sem g (pcall sem g room f) f i x here rest = some o) :
    ∀ f, f0 ≤ f → prunDeep sem g room (f + 1) (some i) here rest = continDeep sem g room f false x.next here rest o :=
  fun f hf => by rw [prunDeep_succ hi, h f hf]; rfl

variable (L : Linked config G sem g) (K : Suffices G Fits)
include L K

theorem bracket_halts {room : Nat} {body : Task} {sub min max : Nat}
    (hb : EndsWell G (fun f => pcall sem g room f sub) (Within Fits room body) body) {i : Nat} {next : Option Nat} {symbol : Str}
    {loc : Location} (hc : g.instructions[i]? = some ⟨next, symbol, loc, .repetition min max sub⟩) (here : Location) (rest : Str) :
    ∃ o f0, (∀ f, f0 ≤ f → prunDeep sem g room (f + 1) (some i) here rest = continDeep sem g room f false next here rest o) ∧
      MeaningOr G (0 < max → Within Fits room body rest.length) (.rounds body min (some max) (decide (max = u32Max)) 0) here rest o := by
  obtain ⟨o, f0, h1, h2⟩ := loop_halts (fun n n' ⟨d, h, h'⟩ hn => ⟨d, h, K.shorter h' hn⟩) hb min max (max - 0) 0 rfl here rest
  exact ⟨o, f0, step_continues hc (fun f hf => h1 f f hf hf), h2⟩

mutual
theorem halts_primary {room : Nat} (C : Calls config G sem g Fits room) : ∀ (p : Primary) (i : Nat) (next : Option Nat),
    CodePrimary config G g.instructions i next p → RunsOn G sem g Fits room i (barePrimary p) next (.primary p)
  | .optional loc l, i, next => by
    rintro ⟨sub, hc1, hc2⟩ here rest
    obtain ⟨o, f0, h1, h2⟩ := bracket_halts L K (C.list l sub hc1) hc2 here rest
    refine ⟨o, f0, h1, ?_⟩
    rcases h2 with ⟨h2, h3⟩ | h2
    · exact .inl ⟨h2, fun hx => h3 fun _ => K.optional hx⟩
    · exact .inr (.optional h2)
  | .repeated loc l, i, next => by
    rintro ⟨sub, hc1, hc2⟩ here rest
    obtain ⟨o, f0, h1, h2⟩ := bracket_halts L K (C.list l sub hc1) hc2 here rest
    refine ⟨o, f0, h1, ?_⟩
    rcases h2 with ⟨h2, h3⟩ | h2
    · exact .inl ⟨h2, fun hx => h3 fun _ => K.repeated hx⟩
    · exact .inr (.repeated h2)
  | .grouped loc l, i, next => by
    intro hc here rest
    obtain ⟨o, f0, h1, h2⟩ := halts_list C l i hc here rest
    refine ⟨o, f0, fun f hf => (h1 (f + 1) (by omega)).trans (continDeep_bare o).symm, ?_⟩
    rcases h2 with ⟨h2, h3⟩ | h2
    · exact .inl ⟨h2, fun hx => h3 (K.grouped hx)⟩
    · exact .inr (.grouped h2)
  | .empty loc, i, next => fun hc here rest =>
    ⟨_, 0, step_continues hc (fun f _ => rfl), .inr .empty⟩
  | .terminalString loc s, i, next => by
    intro hc here rest
    by_cases hp : s <+: rest
    · exact ⟨_, 0, step_continues hc (fun f _ => by simp only [pexec, if_pos hp]), .inr (.terminal hp)⟩
    · exact ⟨_, 0, step_continues hc (fun f _ => by simp only [pexec, if_neg hp, symbolAt_eq hc]), .inr (.terminalFail hp)⟩
  | .metaIdentifier loc n, i, next => by
    intro hc here rest
    by_cases hd : ∃ r ∈ G.rules, SameName r.metaIdentifier n
    · obtain ⟨r, hr, hs⟩ := hd
      obtain ⟨a, h3, h4, h5⟩ := alias_defined L hr hs
      obtain ⟨o, f0, h1, h2⟩ := C.list _ a h5 here rest
      rcases h2 with ⟨rfl, h2⟩ | h2
      · exact ⟨overflow, f0, step_continues hc (fun f hf => by simp only [pexec, h3, h4, h1 f hf]),
          .inl ⟨rfl, fun hx => h2 (K.reference hr hs hx)⟩⟩
      · cases o with
        | ok evs k => exact ⟨_, f0, step_continues hc (fun f hf => by simp only [pexec, h3, h4, h1 f hf]), .inr (.reference hr hs h2)⟩
        | fail e evs k =>
          exact ⟨_, f0, step_continues hc (fun f hf => by simp only [pexec, h3, h4, h1 f hf]), .inr (.referenceFail hr hs h2)⟩
        | abort e =>
          exact ⟨_, f0, step_continues hc (fun f hf => by simp only [pexec, h3, h4, h1 f hf]), .inr (.referenceStop hr hs h2 trivial)⟩
        | panic e =>
          exact ⟨_, f0, step_continues hc (fun f hf => by simp only [pexec, h3, h4, h1 f hf]), .inr (.referenceStop hr hs h2 trivial)⟩
    · have hd' : ∀ r ∈ G.rules, ¬ SameName r.metaIdentifier n := fun r hr hs => hd ⟨r, hr, hs⟩
      refine ⟨_, 0, step_continues hc (fun f _ => ?_), .inr (.referenceUndefined hd')⟩
      simp only [pexec, alias_undefined L hd']
      cases g.indexOfLabel _ <;> rfl
  | .specialSequence loc s, i, next => by
    intro hc here rest
    cases hs : G.special loc s loc here rest with
    | accept evs n => exact ⟨_, 0, step_continues hc (fun f _ => by simp only [pexec, L.sem, hs]), .inr (.special hs)⟩
    | unmatched =>
      exact ⟨_, 0, step_continues hc (fun f _ => by simp only [pexec, L.sem, hs, symbolAt_eq hc, L.symbol]), .inr (.specialFail hs)⟩
    | error e => exact ⟨_, 0, step_continues hc (fun f _ => by simp only [pexec, L.sem, hs]), .inr (.specialError hs)⟩
    | forward name n =>
      cases hx : g.indexOfLabel name with
      | none =>
        refine ⟨_, 0, step_continues hc (fun f _ => by simp only [pexec, L.sem, hs, hx, L.symbol]), .inr (.forwardUndefined hs ?_)⟩
        intro task ht
        obtain ⟨a, h3, _⟩ := forward_some L ht
        rw [hx] at h3; simp at h3
      | some a =>
        obtain ⟨task, h3, h4⟩ := forward_inv L hx
        obtain ⟨o, f0, h1, h2⟩ := calls_task C h4 (lineColumn here (rest.take n)) (rest.drop n)
        rcases h2 with ⟨rfl, h2⟩ | h2
        · exact ⟨overflow, f0, step_continues hc (fun f hf => by simp only [pexec, L.sem, hs, hx, h1 f hf]),
            .inl ⟨rfl, fun hx => h2 (K.forward hs h3 hx)⟩⟩
        · cases o with
          | ok evs k =>
            exact ⟨_, f0, step_continues hc (fun f hf => by simp only [pexec, L.sem, hs, hx, h1 f hf]), .inr (.forward hs h3 h2)⟩
          | fail e evs k =>
            exact ⟨_, f0, step_continues hc (fun f hf => by simp only [pexec, L.sem, hs, hx, h1 f hf]), .inr (.forwardIgnored hs h3 h2 rfl)⟩
          | abort e =>
            exact ⟨_, f0, step_continues hc (fun f hf => by simp only [pexec, L.sem, hs, hx, h1 f hf]), .inr (.forwardStop hs h3 h2 trivial)⟩
          | panic e =>
            exact ⟨_, f0, step_continues hc (fun f hf => by simp only [pexec, L.sem, hs, hx, h1 f hf]), .inr (.forwardStop hs h3 h2 trivial)⟩
theorem halts_factor {room : Nat} (C : Calls config G sem g Fits room) : ∀ (x : Factor) (i : Nat) (next : Option Nat),
    CodeFactor config G g.instructions i next x → RunsOn G sem g Fits room i (bareFactor x) next (.factor x)
  | .mk n p, i, next => by
    intro hc here rest
    simp only [CodeFactor] at hc
    by_cases hn : n = 1
    · rw [if_pos hn] at hc
      subst hn
      obtain ⟨o, f0, h1, h2⟩ := halts_primary C p i next hc here rest
      refine ⟨o, f0, fun f hf => by rw [h1 f hf]; simp [bareFactor], ?_⟩
      rcases h2 with ⟨h2, h3⟩ | h2
      · exact .inl ⟨h2, fun hx => h3 (K.once hx)⟩
      · exact .inr (.once h2)
    · rw [if_neg hn] at hc
      obtain ⟨sub, hc1, hc2⟩ := hc
      obtain ⟨o, f0, h1, h2⟩ := bracket_halts L K (C.primary p sub hc1) hc2 here rest
      have hb : bareFactor (.mk n p) = false := by simp [bareFactor, hn]
      rw [hb]
      refine ⟨o, f0, h1, ?_⟩
      rcases h2 with ⟨h2, h3⟩ | h2
      · exact .inl ⟨h2, fun hx => h3 fun h0 => K.counted (by omega) hn hx⟩
      · refine .inr (.counted hn ?_)
        have hd : decide (asBuilt.roundLimit = some n) = decide (n = u32Max) := by
          simp only [asBuilt, u32Max, Option.some.injEq]
          exact decide_eq_decide.mpr ⟨fun h => h.symm, fun h => h.symm⟩
        rw [hd]; exact h2
theorem halts_term {room : Nat} (C : Calls config G sem g Fits room) : ∀ (t : Term) (i : Nat) (next : Option Nat),
    CodeTerm config G g.instructions i next t → RunsOn G sem g Fits room i (bareTerm t) next (.term t)
  | .plain x, i, next => by
    intro hc here rest
    obtain ⟨o, f0, h1, h2⟩ := halts_factor C x i next hc here rest
    refine ⟨o, f0, h1, ?_⟩
    rcases h2 with ⟨h2, h3⟩ | h2
    · exact .inl ⟨h2, fun hx => h3 (K.plain hx)⟩
    · exact .inr (.plain h2)
  | .except x e, i, next => by
    rintro ⟨a, b, hc1, hc2, hc3⟩ here rest
    obtain ⟨o, f0, h1, h2⟩ := C.factor x a hc1 here rest
    rcases h2 with ⟨rfl, h2⟩ | h2
    · refine ⟨overflow, f0, step_continues hc3 (fun f hf => by simp only [pexec, h1 f hf]), .inl ⟨rfl, fun hx => h2 ?_⟩⟩
      obtain ⟨d, h, h', _⟩ := K.except hx
      exact ⟨d, h, h'⟩
    · cases o with
      | fail er evs n => exact ⟨_, f0, step_continues hc3 (fun f hf => by simp only [pexec, h1 f hf]), .inr (.exceptFail h2)⟩
      | abort er => exact ⟨_, f0, step_continues hc3 (fun f hf => by simp only [pexec, h1 f hf]), .inr (.exceptStop h2 trivial)⟩
      | panic er => exact ⟨_, f0, step_continues hc3 (fun f hf => by simp only [pexec, h1 f hf]), .inr (.exceptStop h2 trivial)⟩
      | ok evs n =>
        obtain ⟨o', f1, h3, h4⟩ := C.factor e b hc2 here (rest.take n)
        rcases h4 with ⟨rfl, h4⟩ | h4
        · refine ⟨overflow, max f0 f1, step_continues hc3 (fun f hf => by simp only [pexec, h1 f (by omega), h3 f (by omega)]),
            .inl ⟨rfl, fun hx => h4 ?_⟩⟩
          obtain ⟨d, h, _, h'⟩ := K.except hx
          exact ⟨d, h, K.shorter h' (by rw [List.length_take]; omega)⟩
        · cases o' with
          | fail er evs' m =>
            exact ⟨_, max f0 f1, step_continues hc3 (fun f hf => by simp only [pexec, h1 f (by omega), h3 f (by omega)]),
              .inr (.notExcludedFail h2 h4)⟩
          | abort er =>
            exact ⟨_, max f0 f1, step_continues hc3 (fun f hf => by simp only [pexec, h1 f (by omega), h3 f (by omega)]),
              .inr (.excludedStop h2 h4 trivial)⟩
          | panic er =>
            exact ⟨_, max f0 f1, step_continues hc3 (fun f hf => by simp only [pexec, h1 f (by omega), h3 f (by omega)]),
              .inr (.excludedStop h2 h4 trivial)⟩
          | ok evs' m =>
            by_cases hm : m = n
            · subst hm
              exact ⟨_, max f0 f1, step_continues hc3 (fun f hf => by
                simp only [pexec, h1 f (by omega), h3 f (by omega), if_true, symbolAt_eq hc3]), .inr (.excluded h2 h4)⟩
            · exact ⟨_, max f0 f1, step_continues hc3 (fun f hf => by
                simp only [pexec, h1 f (by omega), h3 f (by omega), if_neg hm]), .inr (.notExcluded h2 h4 hm)⟩
theorem halts_sequence {room : Nat} (C : Calls config G sem g Fits room) : ∀ (d : SingleDefinition) (start : Option Nat),
    CodeTerms config G g.instructions start d → EndsWell G (fun f => prunDeep sem g room f start) (Fits room (.sequence d)) (.sequence d)
  | .nil, start => by
    intro hc here rest
    simp only [CodeTerms] at hc
    subst hc
    exact ⟨.ok [] 0, 1, fun f hf => by obtain ⟨k, rfl⟩ : ∃ k, f = k + 1 := ⟨f - 1, by omega⟩; rfl, .inr .done⟩
  | .cons t d, start => by
    rintro ⟨i, next, rfl, hc1, hc2⟩ here rest
    obtain ⟨o, f0, h1, h2⟩ := halts_term C t i next hc1 here rest
    rcases h2 with ⟨rfl, h2⟩ | h2
    · refine ⟨overflow, f0 + 1, fun f hf => ?_, .inl ⟨rfl, fun hx => h2 (K.first hx)⟩⟩
      obtain ⟨k, rfl⟩ : ∃ k, f = k + 1 := ⟨f - 1, by omega⟩
      show prunDeep sem g room (k + 1) (some i) here rest = _
      rw [h1 k (by omega)]; rfl
    · cases o with
      | ok evs n =>
        cases hb : bareTerm t with
        | true =>
          refine ⟨.ok evs n, f0 + 1, fun f hf => ?_, .inr (.dropped rfl ((bareTerm_iff t).mp hb) h2)⟩
          obtain ⟨k, rfl⟩ : ∃ k, f = k + 1 := ⟨f - 1, by omega⟩
          show prunDeep sem g room (k + 1) (some i) here rest = _
          rw [h1 k (by omega), hb, continDeep_bare]
        | false =>
          have hnb : ¬ IsBareGroup t := fun hx => by have := (bareTerm_iff t).mpr hx; rw [hb] at this; simp at this
          obtain ⟨o', f1, h3, h4⟩ := halts_sequence C d next hc2 (lineColumn here (rest.take n)) (rest.drop n)
          simp only at h3
          refine ⟨o'.after evs n, max f0 f1 + 1, fun f hf => ?_, ?_⟩
          · obtain ⟨k, rfl⟩ : ∃ k, f = k + 1 := ⟨f - 1, by omega⟩
            show prunDeep sem g room (k + 1) (some i) here rest = _
            rw [h1 k (by omega), hb]
            simp only [continDeep, Bool.false_eq_true, if_false, h3 k (by omega), Option.map_some]
          · rcases h4 with ⟨rfl, h4⟩ | h4
            · exact .inl ⟨rfl, fun hx => h4 (K.later hx hnb h2)⟩
            · exact .inr (.next (fun hx => hnb hx.2) h2 h4)
      | fail e evs n =>
        refine ⟨_, f0 + 1, fun f hf => ?_, .inr (.nextFail h2 (fun h => h))⟩
        obtain ⟨k, rfl⟩ : ∃ k, f = k + 1 := ⟨f - 1, by omega⟩
        show prunDeep sem g room (k + 1) (some i) here rest = _
        rw [h1 k (by omega)]; rfl
      | abort e =>
        refine ⟨_, f0 + 1, fun f hf => ?_, .inr (.nextFail h2 (fun h => h))⟩
        obtain ⟨k, rfl⟩ : ∃ k, f = k + 1 := ⟨f - 1, by omega⟩
        show prunDeep sem g room (k + 1) (some i) here rest = _
        rw [h1 k (by omega)]; rfl
      | panic e =>
        refine ⟨_, f0 + 1, fun f hf => ?_, .inr (.nextFail h2 (fun h => h))⟩
        obtain ⟨k, rfl⟩ : ∃ k, f = k + 1 := ⟨f - 1, by omega⟩
        show prunDeep sem g room (k + 1) (some i) here rest = _
        rw [h1 k (by omega)]; rfl
theorem halts_list {room : Nat} (C : Calls config G sem g Fits room) : ∀ (l : DefinitionList) (i : Nat),
    CodeList config G g.instructions i l → EndsWell G (fun f => prunDeep sem g room f (some i)) (Fits room (.list l)) (.list l)
  | .nil, i => fun h => h.elim
  | .cons d .nil, i => by
    rintro ⟨_, hc⟩ here rest
    obtain ⟨o, f0, h1, h2⟩ := halts_sequence C d (some i) hc here rest
    refine ⟨o, f0, h1, ?_⟩
    rcases h2 with ⟨h2, h3⟩ | h2
    · exact .inl ⟨h2, fun hx => h3 (K.single hx)⟩
    · exact .inr (.single h2)
  | .cons d (.cons d' l), i => by
    rintro ⟨a, more, loc, hd, hc1, hc2, hc3⟩ here rest
    obtain ⟨o, f0, h1, h2⟩ := por_halts (g := g) (G := G) (config := config) (run := fun f => pcall sem g room f)
      (enough := fun x => Within Fits room (.sequence x)) (fun x a hc => C.sequence x a hc)
      (.cons d (.cons d' l)) (a :: more) (by simp) ⟨a, more, rfl, hd, hc1, hc2⟩ here rest
    simp only at h1
    rcases h2 with ⟨rfl, h2⟩ | h2
    · refine ⟨overflow, f0 + 2, fun f hf => ?_, .inl ⟨rfl, fun hx => h2 ?_⟩⟩
      · obtain ⟨k, rfl⟩ : ∃ k, f = k + 2 := ⟨f - 2, by omega⟩
        show prunDeep sem g room (k + 2) (some i) here rest = _
        rw [prunDeep_succ hc3]
        simp only [pexec, h1 (k + 1) (by omega), Option.bind_some]
        rfl
      · obtain ⟨d', h, h'⟩ := K.choice hx
        exact fun z hz => ⟨d', h, h' z hz⟩
    · cases o with
      | fail e evs n =>
        refine ⟨_, f0 + 2, fun f hf => ?_, .inr (.choiceFail h2)⟩
        obtain ⟨k, rfl⟩ : ∃ k, f = k + 2 := ⟨f - 2, by omega⟩
        show prunDeep sem g room (k + 2) (some i) here rest = _
        rw [prunDeep_succ hc3]
        simp only [pexec, h1 (k + 1) (by omega), symbolAt_eq hc3, Option.bind_some]
        exact continDeep_none _
      | ok evs n =>
        refine ⟨_, f0 + 2, fun f hf => ?_, .inr (.choice h2 (by simp))⟩
        obtain ⟨k, rfl⟩ : ∃ k, f = k + 2 := ⟨f - 2, by omega⟩
        show prunDeep sem g room (k + 2) (some i) here rest = _
        rw [prunDeep_succ hc3]
        simp only [pexec, h1 (k + 1) (by omega), Option.bind_some]
        exact continDeep_none _
      | abort e =>
        refine ⟨_, f0 + 2, fun f hf => ?_, .inr (.choice h2 (by simp))⟩
        obtain ⟨k, rfl⟩ : ∃ k, f = k + 2 := ⟨f - 2, by omega⟩
        show prunDeep sem g room (k + 2) (some i) here rest = _
        rw [prunDeep_succ hc3]
        simp only [pexec, h1 (k + 1) (by omega), Option.bind_some]
        exact continDeep_none _
      | panic e =>
        refine ⟨_, f0 + 2, fun f hf => ?_, .inr (.choice h2 (by simp))⟩
        obtain ⟨k, rfl⟩ : ∃ k, f = k + 2 := ⟨f - 2, by omega⟩
        show prunDeep sem g room (k + 2) (some i) here rest = _
        rw [prunDeep_succ hc3]
        simp only [pexec, h1 (k + 1) (by omega), Option.bind_some]
        exact continDeep_none _
end

theorem calls_all (room : Nat) : Calls config G sem g Fits room := by
  induction room with
  | zero => exact calls_zero
  | succ room C =>
    have key : ∀ {a task}, EndsWell G (fun f => prunDeep sem g room f (some a)) (Fits room task) task →
        EndsWell G (fun f => pcall sem g (room + 1) f a) (Within Fits (room + 1) task) task := by
      intro a task h here rest
      obtain ⟨o, f0, h1, h2⟩ := h here rest
      refine ⟨o, f0, h1, meaningOr_weaken h2 ?_⟩
      rintro ⟨d, h, h'⟩
      have : room = d := by omega
      exact this ▸ h'
    have cont : ∀ {a bare task}, RunsOn G sem g Fits room a bare none task →
        EndsWell G (fun f => prunDeep sem g room f (some a)) (Fits room task) task := by
      intro a bare task h here rest
      obtain ⟨o, f0, h1, h2⟩ := h here rest
      refine ⟨o, f0 + 2, fun f hf => ?_, h2⟩
      obtain ⟨k, rfl⟩ : ∃ k, f = k + 2 := ⟨f - 2, by omega⟩
      simp only [h1 (k + 1) (by omega), continDeep_none]
    exact ⟨fun l a hc => key (halts_list L K C l a hc), fun x a hc => key (halts_sequence L K C x _ hc),
      fun p a hc => key (cont (halts_primary L K C p a none hc)), fun x a hc => key (cont (halts_factor L K C x a none hc))⟩

end Halt

end Ebnf
