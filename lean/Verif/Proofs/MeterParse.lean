import Verif.Proofs.MeterCalls
import Verif.Props.AnyReader

set_option autoImplicit false

/-! # Lemmas: what parsing makes the reader do (C104) -/

namespace Ebnf.Meter

open Ebnf.Spec Ebnf.Dyn

theorem chars_loop_same (allowed : Char → Bool) (max : Option Nat) (fuel : Nat) :
    ∀ count, Dyn.charsLoop Reader.required.methods allowed max fuel count = Ebnf.charsLoop allowed max fuel count := by
  rw [Props.c98_same]
  induction fuel with
  | zero => intro count; rfl
  | succ fuel ih =>
    intro count
    unfold Dyn.charsLoop Ebnf.charsLoop
    rw [ih]
    rfl

theorem chars_same (allowed : Char → Bool) (min max : Option Nat) :
    Dyn.charsScan Reader.required.methods allowed min max = (charsScanner allowed min max).scan := by
  funext d
  have h := chars_loop_same allowed max
  have h' : Dyn.charsLoop Reader.required.methods allowed max = Ebnf.charsLoop allowed max := by
    funext a b; exact h a b
  unfold Dyn.charsScan charsScanner
  rw [h', Props.c98_same]
  rfl

theorem regex_same (source : Str) (find : Str → Option (Nat × Nat)) :
    Dyn.regexScan Reader.required.methods find = (regexScanner source find).scan := by
  funext d
  unfold Dyn.regexScan regexScanner
  rw [Props.c98_same]
  rfl

theorem paid_scan {Q : Nat → Prop} {scanner : SpecialScanner} {scan : Location → RM Metered Reaction}
    (h : LibraryScan Metered.required.methods scanner scan) (d : Location) : Same (Paid Q) (scan d) (scanner.scan d) := by
  cases h with
  | default content => exact same_pure _
  | chars allowed min max => rw [← chars_same]; exact same_chars paid_agree allowed min max d
  | regex source find => rw [← regex_same]; exact paid_regex find d

/-- What `parse` pays, and that it does the same. -/
theorem parse_paid {Q : Nat → Prop} {scan : SpecialScanner → Location → RM Metered Reaction} {m : Machine}
    (hs : LibraryScanners Metered.required.methods scan m.graph) (fuel : Nat) :
    Same (Paid Q) (Dyn.parse Metered.required.methods scan m fuel) (m.parse fuel) := by
  rw [← Props.c99_same]
  exact same_parse paid_agree (fun addr instr scanner h1 h2 d => paid_scan (hs addr instr scanner h1 h2) d) fuel

theorem eof_ended {s : Metered} (hs : Sound s.reader) (h : (Metered.required.isEof s).1 = .ok true) :
    (Metered.required.isEof s).2.reader.source = ⟨[], [], (Metered.required.isEof s).2.reader.source.location⟩ := by
  unfold Required.isEof at h ⊢
  obtain ⟨m, h1, h2, h3⟩ := bind_ok h
  obtain ⟨ch, h4, h5, h6⟩ := bind_ok h2
  obtain ⟨k, h7, h8, h9⟩ := bind_ok h5
  rw [h3, h6, h9]
  have g1 := (mark_facts s hs).2.2.1.sound
  change (Metered.mark s).1 = _ at h1
  change (Metered.resetToMark m (Metered.required.read (Metered.mark s).2).2).2.reader.source =
    ⟨[], [], (Metered.resetToMark m (Metered.required.read (Metered.mark s).2).2).2.reader.source.location⟩
  change (Metered.required.read (Metered.mark s).2).1 = .ok ch at h4
  have g2 := (loop_read g1).sound
  rw [(reset_facts m _ g2).2.2.1.source]
  have h10 : ch = none := by
    change Res.ok ch.isNone = Res.ok true at h8
    cases ch with
    | none => rfl
    | some c => cases h8
  rw [h10] at h4
  obtain ⟨cs, h11, h12, h13⟩ := bind_ok h4
  change (Metered.readChars 1 (Metered.mark s).2).1 = .ok cs at h11
  have h14 : cs = [] := by
    cases cs with
    | nil => rfl
    | cons c cs => cases h12
  rw [h14] at h11
  have := (readChars_facts 1 _ g1).ended h11 (by omega)
  have e : (Metered.required.read (Metered.mark s).2).2 = (Metered.readChars 1 (Metered.mark s).2).2 := by
    exact h13
  rw [e]
  exact this

/-- After a success, the source is at its end. -/
theorem parse_ended {scan : SpecialScanner → Location → RM Metered Reaction} {m : Machine}
    (hs : LibraryScanners Metered.required.methods scan m.graph) (fuel : Nat) (s : Metered) (h0 : Sound s.reader) (events : List Event)
    (h : (Dyn.parse Metered.required.methods scan m fuel s).1 = .ok events) :
    (Dyn.parse Metered.required.methods scan m fuel s).2.reader.source =
      ⟨[], [], (Dyn.parse Metered.required.methods scan m fuel s).2.reader.source.location⟩ := by
  have hs' := same_run (R := Paid fun _ => True) (g := m.graph) paid_agree (fun addr instr scanner h1 h2 d => paid_scan (hs addr instr scanner h1 h2) d) fuel (some m.entry) s s.reader ⟨rfl, trivial, h0⟩
  unfold Dyn.parse at h ⊢
  obtain ⟨out, h1, h2, h3⟩ := bind_ok h
  rw [h3]
  have g : Sound (Dyn.runFrom Metered.required.methods scan m.graph fuel (some m.entry) s).2.reader := by
    rw [hs'.2.1]; exact hs'.2.2.2
  generalize (Dyn.runFrom Metered.required.methods scan m.graph fuel (some m.entry) s).2 = t at g h2
  obtain ⟨prospect, evs⟩ := out
  cases prospect with
  | notThisWay e => cases h2
  | proceed =>
    obtain ⟨b, h4, h5, h6⟩ := bind_ok h2
    dsimp only
    rw [h6]
    change (Metered.required.isEof t).1 = .ok b at h4
    cases b with
    | false =>
      obtain ⟨e, h7, h8, h9⟩ := bind_ok h5
      cases h8
    | true =>
      have e := eof_ended g h4
      change ((do let r ← RM.get; if Metered.required.methods.debug r && !labelsAgree evs then RM.lift (.panic .debugAssert) else pure (removeEmpty evs) : RM Metered _)
        (Metered.required.isEof t).2).2.reader.source = ⟨[], [], ((do let r ← RM.get; if Metered.required.methods.debug r && !labelsAgree evs then RM.lift (.panic .debugAssert) else pure (removeEmpty evs) : RM Metered _)
        (Metered.required.isEof t).2).2.reader.source.location⟩
      have e2 : ((do let r ← RM.get; if Metered.required.methods.debug r && !labelsAgree evs then RM.lift (.panic .debugAssert) else pure (removeEmpty evs) : RM Metered _)
        (Metered.required.isEof t).2).2 = (Metered.required.isEof t).2 := by
        simp only [RM.bind_run, RM.get]
        split <;> rfl
      rw [e2]
      exact e

/-! ## Histories of calls -/

theorem answer_eq {α : Type} (f : α → ReaderAns) (x : Res α × Reader) : answerOf f x = answer f x := by
  obtain ⟨a, r⟩ := x
  cases a <;> rfl

theorem call_perform (op : ReaderOp) (r : Reader) : call Reader.required.methods op r = perform op r := by
  rw [Props.c98_same]
  cases op with
  | location => rfl
  | _ => exact answer_eq _ _

theorem callAll_perform (ops : List ReaderOp) : ∀ r, callAll Reader.required.methods ops r = performAll ops r := by
  induction ops with
  | nil => intro r; rfl
  | cons op ops ih =>
    intro r
    unfold callAll performAll
    rw [call_perform]
    simp only [ih]

/-- Each operation, given that reading several characters pays. -/
theorem paid_call {Q : Nat → Prop} (op : ReaderOp)
    (h : ∀ n, (n ≠ 0 ∨ op = .readChars 0) → n = 1 ∨ ¬ OneByOne op → Same (Paid Q) (Metered.readChars n) (Reader.readChars n)) :
    SameCall (Paid Q) Metered.required.methods Reader.required.methods op := by
  intro s t hp
  cases op with
  | read => exact same_answer (paid_char s t hp)
  | readChars n =>
    refine same_answer (h n ?_ ?_ s t hp)
    · by_cases hn : n = 0
      · exact Or.inr (by rw [hn])
      · exact Or.inl hn
    · by_cases hn : n = 1
      · exact Or.inl hn
      · exact Or.inr hn
  | readAll =>
    refine same_answer (same_readAll (fun n hn => h n (Or.inl hn) (Or.inr id)) ?_ s t hp)
    rintro s t ⟨rfl, _⟩; rfl
  | peek n => exact same_answer (paid_peek n s t hp)
  | prefixMatches p => exact same_answer (paid_prefix p s t hp)
  | isEof => exact same_answer (paid_isEof s t hp)
  | skip n => exact same_answer (same_skip (fun n hn => h n (Or.inl hn) (Or.inr id)) n s t hp)
  | mark => exact same_answer (paid_mark s t hp)
  | resetToMark m => exact same_answer (paid_reset m s t hp)
  | unmark m => exact same_answer (paid_unmark m s t hp)
  | location => exact ⟨by obtain ⟨rfl, _⟩ := hp; rfl, hp⟩

theorem calls_same (ops : List ReaderOp) (s : Metered) (h : Sound s.reader) :
    (callAll Metered.required.methods ops s).1 = (performAll ops s.reader).1 ∧
    (callAll Metered.required.methods ops s).2.reader = (performAll ops s.reader).2 ∧ Sound (performAll ops s.reader).2 := by
  have := same_callAll (R := Paid fun _ => True) ops (fun op _ => paid_call op fun n _ _ => by
    rintro s t ⟨rfl, _, hs⟩
    have h := readChars_facts n s hs
    exact ⟨h.answer, h.reader, trivial, by rw [← h.reader]; exact h.sound⟩) s s.reader ⟨rfl, trivial, h⟩
  rw [callAll_perform] at this
  exact ⟨this.1, this.2.1, this.2.2.2⟩

theorem calls_atMost (ops : List ReaderOp) (ho : .readChars 0 ∉ ops) (s : Metered) (h : Sound s.reader) :
    2 * (callAll Metered.required.methods ops s).2.moved + stepsTwice (callAll Metered.required.methods ops s).2.reader.source ≤
      2 * s.moved + stepsTwice s.reader.source :=
  (same_callAll (R := Paid fun k => k ≤ 2 * s.moved + stepsTwice s.reader.source) ops (fun op hop => paid_call op fun n hn _ =>
    paid_read (fun _ _ h1 h2 => Nat.le_trans h1 h2) n (hn.elim id fun e => absurd (e ▸ hop) ho)) s s.reader ⟨rfl, Nat.le_refl _, h⟩).2.2.1

theorem calls_exactly (ops : List ReaderOp) (ho : ∀ op ∈ ops, OneByOne op) (s : Metered) (h : Sound s.reader) :
    2 * (callAll Metered.required.methods ops s).2.moved + stepsTwice (callAll Metered.required.methods ops s).2.reader.source =
      2 * s.moved + stepsTwice s.reader.source :=
  (same_callAll (R := Paid fun k => k = 2 * s.moved + stepsTwice s.reader.source) ops (fun op hop => paid_call op fun n _ hn => by
    rcases hn with rfl | hn
    · exact paid_read1
    · exact absurd (ho op hop) hn) s s.reader ⟨rfl, rfl, h⟩).2.2.1

theorem calls_marks (ops : List ReaderOp) : ∀ (s : Metered), Sound s.reader →
    (∀ a ∈ (callAll Metered.required.methods ops s).1, NoError a) →
    (callAll Metered.required.methods ops s).2.marks + (callAll Metered.required.methods ops s).2.reader.buffer.stack.length ≤
      s.marks + s.reader.buffer.stack.length + 2 * ops.length := by
  induction ops with
  | nil => intro s _ _; exact Nat.le_refl _
  | cons op ops ih =>
    intro s hs ha
    obtain ⟨h1, _, _, h4⟩ := call_facts op s hs
    unfold callAll at ha ⊢
    have h5 := h4 (ha _ (by simp))
    have h6 := ih _ h1 (fun a h => ha a (by simp [h]))
    simp only [List.length_cons]
    omega

theorem sound_new (location : Location) (source : Source) (dbg : Bool) : Sound (Reader.withLocation location source dbg) := Nat.le_refl _

/-! ## Sums -/

theorem round_le {K : Nat} {x : Except Nat Str} (h : ∀ cs, x = .ok cs → cs.length ≤ K) :
    roundTwice x ≤ (K + 5) * (match x with | .ok t => t.length | .error _ => 0) + 2 := by
  cases x with
  | error e => simp [roundTwice]
  | ok cs =>
    cases cs with
    | nil => simp [roundTwice]
    | cons c cs =>
      have h := h _ rfl
      unfold roundTwice
      have : (c :: cs).length * ((c :: cs).length + 5) ≤ (c :: cs).length * (K + 5) := Nat.mul_le_mul_left _ (by omega)
      rw [Nat.mul_comm (K + 5)]
      dsimp only
      omega

theorem rounds_le {K : Nat} {rs : List (Except Nat Str)} (h : ∀ cs, .ok cs ∈ rs → cs.length ≤ K) :
    (rs.map roundTwice).sum ≤ (K + 5) * (rs.map fun | .ok t => t.length | .error _ => 0).sum + 2 * rs.length := by
  induction rs with
  | nil => simp
  | cons x rs ih =>
    have h1 := round_le (x := x) (K := K) (fun cs e => h cs (by simp [e]))
    have h2 := ih fun cs hc => h cs (by simp [hc])
    simp only [List.map_cons, List.sum_cons, List.length_cons, Nat.mul_add]
    cases x with
    | ok t => dsimp only at h1 ⊢; omega
    | error e => dsimp only at h1 ⊢; omega

end Ebnf.Meter
