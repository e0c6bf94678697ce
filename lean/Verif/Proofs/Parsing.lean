import Verif.Proofs.Complete
import Verif.Spec.Parsing
import Verif.Proofs.Balanced
import Verif.Spec.Conditions

set_option autoImplicit false

/-! # Parsing -/

namespace Ebnf

open Spec

variable {dbg : Bool}

theorem onePass_iff (es out : List Event) : OnePass es out ↔ removeEmptyFrom es = out := by
  constructor
  · intro h
    induction h with
    | nil => rfl
    | @pair b e es out hb he _ ih =>
      cases b <;> simp only [IsBegin] at hb
      cases e <;> simp only [IsEnd] at he
      rw [removeEmptyFrom]; exact ih
    | @keep x es out hk _ ih =>
      rw [removeEmptyFrom.eq_2, ih]
      intro a b c d e f es' h1 h2
      subst h1
      exact hk _ _ h2 ⟨trivial, trivial⟩
  · rintro rfl
    fun_induction removeEmptyFrom es with
    | case1 a b c d e f es ih => exact .pair trivial trivial ih
    | case2 x es hk ih =>
      refine .keep (fun e es' he hx => ?_) ih
      subst he
      cases x <;> simp only [IsBegin] at hx <;> try exact hx.1.elim
      cases e <;> simp only [IsEnd] at hx <;> try exact hx.2.elim
      exact hk _ _ _ _ _ _ _ rfl rfl
    | case3 => exact .nil

theorem trimmed_iff (es out : List Event) : Trimmed es out ↔ removeEmpty es = out := by
  constructor
  · intro h
    cases h with
    | nil => rfl
    | cons h => rw [removeEmpty, (onePass_iff _ _).mp h]
  · rintro rfl
    cases es with
    | nil => exact .nil
    | cons e es => exact .cons ((onePass_iff _ _).mpr rfl)

theorem realizes_bounded {config : Config} {G : Language} (h : Realizes dbg config G) : Bounded G := by
  intro loc s d here rest
  obtain ⟨r0, m0, hs⟩ := stands_marked (dbg := dbg) here rest
  have hb := (h loc s).1 d _ _ hs.1 hs.2 (by simp)
  rw [marked_rest, marked_location] at hb
  constructor
  · intro evs n he
    rw [he] at hb
    obtain ⟨_, _, _, h1, _⟩ := hb
    exact h1
  · intro evs n he
    rw [he] at hb
    obtain ⟨_, _, _, h1, _⟩ := hb
    exact h1

/-- In a debug build the scanners report well nested events. -/
theorem realizes_balanced {config : Config} {G : Language} (h : Realizes dbg config G) (hd : dbg = true) : ScannersBalanced G := by
  intro loc s d here rest evs n he
  obtain ⟨r0, m0, hs⟩ := stands_marked (dbg := dbg) here rest
  have hb := (h loc s).1 d _ _ hs.1 hs.2 (by simp)
  rw [marked_rest, marked_location, he] at hb
  obtain ⟨_, _, _, _, _, _, h1⟩ := hb
  exact h1 hd

/-- The debug assertion on the labels of removed pairs holds. -/
theorem realizes_agree {config : Config} {G : Language} (h : Realizes dbg config G) {q : Quirks} {task : Task} {here : Location}
    {rest : Str} {evs : List Event} {n : Nat} (he : Ev q G task here rest (.ok evs n)) : (dbg && !labelsAgree evs) = false := by
  cases hd : dbg with
  | false => rfl
  | true => rw [balanced_agree ((ev_balanced (realizes_balanced h hd) he).1 _ _ rfl)]; rfl

/-- The parser made for a rule. -/
theorem parser_linked {G : Language} {start : SyntaxRule} {m : Machine} (h : ParserFor dbg G start m) :
    ∃ config, Linked config G (semOf dbg) m.graph ∧ GraphBehaves dbg (semOf dbg) m.graph ∧ Realizes dbg config G ∧
      m.metaIdentifier = start.metaIdentifier ∧
      CodePrimary config G m.graph.instructions m.entry none (.metaIdentifier start.location start.metaIdentifier) := by
  obtain ⟨⟨s, config, g, query, h1, h2, h3, h4, h5⟩, h6, h7⟩ := h
  obtain ⟨g', h8, h9⟩ := compile_ok (fun l s => (h2 l s).2) h1 h6
  rw [h3] at h8; injection h8 with h8; subst h8
  have hk := (keyed_eq_iff _ _).mpr h4
  have hm : m.graph = g ∧ g.indexOfLabel ('$' :: query) = some m.entry ∧ g.canonicalName query = some m.metaIdentifier := by
    unfold Machine.new at h5
    cases ha : g.indexOfLabel ('$' :: query) with
    | none => rw [ha] at h5; simp at h5
    | some a =>
      rw [ha] at h5
      simp only at h5
      cases hn : g.canonicalName query with
      | none => rw [hn] at h5; simp at h5
      | some n => rw [hn] at h5; simp at h5; subst h5; exact ⟨rfl, rfl, rfl⟩
  obtain ⟨hm1, hm2, hm3⟩ := hm
  subst hm1
  refine ⟨config, ⟨h9, fun l s => (h2 l s).2, fun l s => semOf_eq (h2 l s).1, ?_⟩, ?_, h2, ?_, ?_⟩
  · intro r hr r' hr' hs
    rcases getSyntaxRule_cases h1 r'.metaIdentifier with ⟨r0, _, _, _, _, a5⟩ | ⟨a1, _⟩
    · rw [a5 r hr hs, a5 r' hr' (.refl _)]
    · exact absurd ⟨r', hr', .refl _⟩ a1
  · intro addr instr scanner hi hst
    obtain ⟨_, hc⟩ := h9.closed instr (List.mem_of_getElem? hi)
    rw [hst] at hc
    obtain ⟨l, t, rfl⟩ := hc
    rw [semOf_eq (h2 l t).1]
    exact (h2 l t).1
  · have := h9.name start h7
    rw [Graph.canonicalName, ← hk, this] at hm3
    injection hm3 with hm3; exact hm3.symm
  · obtain ⟨a, ha1, ha2⟩ := h9.marked start h7
    rw [Graph.indexOfLabel, keyed_dollar, ← hk, ha1] at hm2
    injection hm2 with hm2; subst hm2
    exact ha2

/-- The machine is the meaning. -/
theorem parse_iff {G : Language} {start : SyntaxRule} {m : Machine} (hp : ParserFor dbg G start m)
    {r : Reader} {c : Cursor} (hr : Rep r c) (hd : r.buffer.dbg = dbg) (x : Res (List Event)) (hx : x ≠ .diverge) :
    (∃ fuel, (m.parse fuel r).1 = x) ↔ Parses asBuilt G start c.location c.rest x := by
  obtain ⟨config, L, hb, hz, _, hc⟩ := parser_linked hp
  have hrun : ∀ fuel, (m.parse fuel r).1 = pparse dbg (semOf dbg) m fuel c.location c.rest :=
    fun fuel => parse_pure hb fuel ⟨hr, hd⟩
  have hle : ∀ {fuel evs n}, prun (semOf dbg) m.graph fuel (some m.entry) c.location c.rest = some (.ok evs n) → n ≤ c.rest.length := by
    intro fuel evs n h
    have := sims_run hb fuel (some m.entry) r c ⟨hr, hd⟩
    rw [h] at this
    exact this.2.1
  have hreach : ∀ {o}, Ev asBuilt G (.primary (.metaIdentifier start.location start.metaIdentifier)) c.location c.rest o →
      ∃ fuel, prun (semOf dbg) m.graph fuel (some m.entry) c.location c.rest = some o := by
    intro o h
    obtain ⟨f0, h1⟩ := reaches_task (task := .primary _) (complete L h) hc
    exact ⟨f0, h1 f0 (Nat.le_refl _)⟩
  constructor
  · rintro ⟨fuel, h⟩
    rw [hrun fuel] at h
    unfold pparse at h
    cases ho : prun (semOf dbg) m.graph fuel (some m.entry) c.location c.rest with
    | none => rw [ho] at h; simp only at h; exact absurd h.symm hx
    | some o =>
      have he := (sound_all L fuel).2.2.1 _ _ _ _ _ hc ho
      rw [ho] at h
      cases o with
      | ok evs n =>
        simp only at h
        have hn := hle ho
        by_cases hn' : n = c.rest.length
        · rw [if_pos hn', realizes_agree hz he, if_neg (by simp)] at h
          subst h hn'
          exact .accepted he ((trimmed_iff _ _).mpr rfl)
        · rw [if_neg hn'] at h
          subst h
          exact .leftover he (by omega)
      | fail e evs n => simp only at h; subst h; exact .rejected he
      | abort e => simp only at h; subst h; exact .aborted he
      | panic p => simp only at h; subst h; exact .crashed he
  · intro h
    cases h with
    | accepted he ht =>
      obtain ⟨fuel, h1⟩ := hreach he
      refine ⟨fuel, ?_⟩
      rw [hrun, pparse, h1]
      simp only [if_true]
      rw [realizes_agree hz he, if_neg (by simp), (trimmed_iff _ _).mp ht]
    | @leftover evs n he hn =>
      obtain ⟨fuel, h1⟩ := hreach he
      refine ⟨fuel, ?_⟩
      rw [hrun, pparse, h1]
      simp only
      rw [if_neg (by omega)]
    | rejected he =>
      obtain ⟨fuel, h1⟩ := hreach he
      exact ⟨fuel, by rw [hrun, pparse, h1]⟩
    | aborted he =>
      obtain ⟨fuel, h1⟩ := hreach he
      exact ⟨fuel, by rw [hrun, pparse, h1]⟩
    | crashed he =>
      obtain ⟨fuel, h1⟩ := hreach he
      exact ⟨fuel, by rw [hrun, pparse, h1]⟩

/-- The start rule has one meaning. -/
theorem ev_start_unique {G : Language} {start : SyntaxRule} {m : Machine} (hp : ParserFor dbg G start m)
    {here : Location} {rest : Str} {o o' : Outcome}
    (h : Ev asBuilt G (.primary (.metaIdentifier start.location start.metaIdentifier)) here rest o)
    (h' : Ev asBuilt G (.primary (.metaIdentifier start.location start.metaIdentifier)) here rest o') : o = o' := by
  obtain ⟨config, L, _, _, _, hc⟩ := parser_linked hp
  obtain ⟨f0, h1⟩ := reaches_task (task := .primary _) (complete L h) hc
  obtain ⟨f1, h2⟩ := reaches_task (task := .primary _) (complete L h') hc
  have a := h1 (max f0 f1) (by omega)
  have b := h2 (max f0 f1) (by omega)
  rw [a] at b
  injection b

/-- The result for an outcome. -/
def verdict (here : Location) (text : Str) : Outcome → Res (List Event)
  | .ok evs n => if n = text.length then .ok (removeEmpty evs)
    else .err (expectedAt "EOF".toList (lineColumn here (text.take n)) (text.drop n))
  | .fail e _ _ => .err e
  | .abort e => .err e
  | .panic p => .panic p

theorem parses_verdict {q : Quirks} {G : Language} {start : SyntaxRule} {here : Location} {text : Str} {x : Res (List Event)}
    (h : Parses q G start here text x) :
    ∃ o, Ev q G (.primary (.metaIdentifier start.location start.metaIdentifier)) here text o ∧ x = verdict here text o := by
  cases h with
  | accepted he ht => exact ⟨_, he, by simp [verdict, (trimmed_iff _ _).mp ht]⟩
  | leftover he hn => exact ⟨_, he, by rw [verdict, if_neg (by omega)]⟩
  | rejected he => exact ⟨_, he, rfl⟩
  | aborted he => exact ⟨_, he, rfl⟩
  | crashed he => exact ⟨_, he, rfl⟩

/-- A parse ends in one way. -/
theorem parses_unique {G : Language} {start : SyntaxRule} {m : Machine} (hp : ParserFor dbg G start m)
    {here : Location} {text : Str} {x x' : Res (List Event)} (h : Parses asBuilt G start here text x)
    (h' : Parses asBuilt G start here text x') : x = x' := by
  obtain ⟨o, h1, rfl⟩ := parses_verdict h
  obtain ⟨o', h2, rfl⟩ := parses_verdict h'
  rw [ev_start_unique hp h1 h2]

end Ebnf
