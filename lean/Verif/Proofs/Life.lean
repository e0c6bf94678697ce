import Verif.Proofs.Decoder
import Verif.Spec.Life

set_option autoImplicit false

/-! # Lemmas: the life of a decoder -/

namespace Ebnf

open Spec

variable {c : Codec}

/-- A decoder that has finished does nothing but panic. -/
theorem make_finished (k : DecoderCall) {d : Decoder c} (h : d.life = .finished) :
    (k.make d).1 = .panic .decoderFinished ∧ (k.make d).2.life = .finished := by
  cases k <;> simp [DecoderCall.make, Decoder.push, Decoder.flush, Decoder.convert, h]

theorem calls_finished (ks : List DecoderCall) {d : Decoder c} (h : d.life = .finished) :
    (decoderCalls ks d).1 = ks.map (fun _ => .panic .decoderFinished) := by
  induction ks generalizing d with
  | nil => rfl
  | cons k ks ih =>
    obtain ⟨h1, h2⟩ := make_finished k h
    simp only [decoderCalls, List.map_cons, h1, ih h2]

/-- One conversion, whatever is in the buffer: it returns, and the decoder lives on as `lived` says. -/
theorem convert_life (bytes : List Byte) (flush : Bool) {d : Decoder c} (h : d.life ≠ .finished) :
    ∃ d' i, ((∃ out, Decoder.convert bytes flush d = (.ok out, d') ∧ i = true) ∨
        ∃ e, Decoder.convert bytes flush d = (.err e, d')) ∧
      d'.life = Decoder.lived d.life (d.buffer ++ bytes) flush i := by
  have := convertLoop_spec (c := c) flush d.stopWithGarbled ((d.buffer ++ bytes).length + 1) d.state d.sched (d.buffer ++ bytes) 0 []
    (by omega)
  cases hb : (d.stopWithGarbled && bad c flush d.state (d.buffer ++ bytes)) with
  | false =>
    obtain ⟨s', hs⟩ := this.1 hb
    have : Decoder.convert bytes flush d = (.ok (outOf c flush d.state (d.buffer ++ bytes)),
        { d with state := (c.run d.state (d.buffer ++ bytes)).1, sched := s',
                 location := d.location.pushStr (outOf c flush d.state (d.buffer ++ bytes)),
                 life := Decoder.lived d.life (d.buffer ++ bytes) flush true,
                 buffer := (d.buffer ++ bytes).drop (0 + (d.buffer ++ bytes).length) }) := by
      simp only [Decoder.convert, List.nil_append, hs, if_neg h]
    exact ⟨_, true, .inl ⟨_, this, rfl⟩, rfl⟩
  | true =>
    obtain ⟨i, p, o, st', s', hs⟩ := this.2 hb
    have : Decoder.convert bytes flush d = Decoder.garbledDetected
        { d with buffer := d.buffer ++ bytes, state := st', sched := s', life := Decoder.lived d.life (d.buffer ++ bytes) flush i } o := by
      simp only [Decoder.convert, hs, if_neg h]
    exact ⟨_, i, .inr ⟨_, this⟩, rfl⟩

theorem lived_fresh {life : Life} {src : List Byte} {flush i : Bool} (h : Decoder.lived life src flush i = .fresh) :
    life = .fresh ∧ src = [] := by
  rw [Decoder.lived] at h
  by_cases h1 : life = .fresh ∧ src = []
  · exact h1
  · rw [if_neg h1] at h
    cases hb : (flush && i) with
    | true => rw [hb, if_pos rfl] at h; cases h
    | false => rw [hb, if_neg Bool.false_ne_true] at h; cases h

/-- A call: a decoder that is fresh afterwards was fresh before and got no byte. -/
theorem make_fresh (k : DecoderCall) {d : Decoder c} (h : (k.make d).2.life = .fresh) :
    d.life = .fresh ∧ d.buffer = [] ∧ givenBytes [k] = [] := by
  by_cases hf : d.life = .finished
  · rw [(make_finished k hf).2] at h; cases h
  · cases k with
    | push bytes =>
      obtain ⟨d', i, h1, h2⟩ := convert_life bytes false hf
      have : (DecoderCall.make (.push bytes) d).2 = d' := by
        rcases h1 with ⟨o, h1, _⟩ | ⟨e, h1⟩ <;> simp only [DecoderCall.make, Decoder.push, h1]
      rw [this, h2] at h
      obtain ⟨h3, h4⟩ := lived_fresh h
      rw [List.append_eq_nil_iff] at h4
      exact ⟨h3, h4.1, by simp [givenBytes, h4.2]⟩
    | flush =>
      obtain ⟨d', i, h1, h2⟩ := convert_life [] true hf
      have : (DecoderCall.make .flush d).2 = d' := by
        rcases h1 with ⟨o, h1, _⟩ | ⟨e, h1⟩ <;> simp only [DecoderCall.make, Decoder.flush, h1]
      rw [this, h2] at h
      obtain ⟨h3, h4⟩ := lived_fresh h
      rw [List.append_eq_nil_iff] at h4
      exact ⟨h3, h4.1, rfl⟩

theorem given_cons (k : DecoderCall) (ks : List DecoderCall) : givenBytes (k :: ks) = givenBytes [k] ++ givenBytes ks := by
  cases k <;> simp [givenBytes]

theorem calls_fresh (ks : List DecoderCall) {d : Decoder c} (h : (decoderCalls ks d).2.life = .fresh) : givenBytes ks = [] ∧ d.life = .fresh := by
  induction ks generalizing d with
  | nil => exact ⟨rfl, h⟩
  | cons k ks ih =>
    obtain ⟨h1, h2⟩ := ih (d := (k.make d).2) h
    obtain ⟨h3, _, h4⟩ := make_fresh k h2
    exact ⟨by rw [given_cons, h1, h4]; rfl, h3⟩

/-- Pushes do not finish a decoder. -/
theorem pushes_open (fs : List (List Byte)) {d : Decoder c} (h : d.life ≠ .finished) :
    (∀ r ∈ (decoderCalls (fs.map .push) d).1, (∃ out, r = .ok out) ∨ ∃ e, r = .err e) ∧
    (decoderCalls (fs.map .push) d).2.life ≠ .finished := by
  induction fs generalizing d with
  | nil => exact ⟨(fun r hr => by cases hr), h⟩
  | cons f fs ih =>
    obtain ⟨d', i, h1, h2⟩ := convert_life f false h
    have hd : (DecoderCall.make (.push f) d).2 = d' := by
      rcases h1 with ⟨o, h1, _⟩ | ⟨e, h1⟩ <;> simp only [DecoderCall.make, Decoder.push, h1]
    have hr : (∃ out, (DecoderCall.make (.push f) d).1 = .ok out) ∨ ∃ e, (DecoderCall.make (.push f) d).1 = .err e := by
      rcases h1 with ⟨o, h1, _⟩ | ⟨e, h1⟩ <;> simp [DecoderCall.make, Decoder.push, h1]
    obtain ⟨h3, h4⟩ := ih (d := d') (by rw [h2]; exact lived_open _ _ _)
    simp only [List.map_cons, decoderCalls, hd]
    exact ⟨fun r hm => (List.mem_cons.mp hm).elim (fun e => e ▸ hr) (h3 r), h4⟩

theorem calls_append (as bs : List DecoderCall) (d : Decoder c) :
    (decoderCalls (as ++ bs) d).2 = (decoderCalls bs (decoderCalls as d).2).2 := by
  induction as generalizing d with
  | nil => rfl
  | cons a as ih => exact ih _

/-- The history of a decoder that replaces malformed sequences. -/
theorem calls_life (ks : List DecoderCall) {d : Decoder c} {st : c.State} (h : Ready d st false) (given : Bool)
    (hg : d.life = .fresh ↔ given = false) : (decoderCalls ks d).1 = lifeOf c given st ks := by
  induction ks generalizing d st given with
  | nil => simp [decoderCalls, lifeOf]
  | cons k ks ih =>
    cases k with
    | push bytes =>
      obtain ⟨d', h1, h2⟩ := push_spec h bytes
      have hm : DecoderCall.make (.push bytes) d = (.ok (decodeOpen c st bytes), d') := h1
      simp only [decoderCalls, lifeOf, hm]
      congr 1
      refine ih h2 _ ?_
      obtain ⟨d2, i, h3, h4⟩ := convert_life bytes false h.unfinished
      have he : d2 = d' := by
        rw [Decoder.push] at h1
        rcases h3 with ⟨o, h3, _⟩ | ⟨e, h3⟩
        · exact (Prod.mk.inj (h3.symm.trans h1)).2
        · exact (Prod.mk.inj (h3.symm.trans h1)).2
      rw [he, h.buffer, List.nil_append] at h4
      rw [h4]
      constructor
      · intro hf
        obtain ⟨h5, h6⟩ := lived_fresh hf
        rw [hg.mp h5, h6]; rfl
      · intro hf
        rw [Bool.or_eq_false_iff] at hf
        have h6 : bytes = [] := by simpa using hf.2
        rw [h6, Decoder.lived, if_pos ⟨hg.mpr hf.1, rfl⟩]
    | flush =>
      obtain ⟨d1, h1⟩ := flush_spec h
      have hm : DecoderCall.make .flush d = (.ok (c.finish st).1, d1) := h1
      obtain ⟨d2, i, h3, h4⟩ := convert_life [] true h.unfinished
      rw [Decoder.flush] at h1
      obtain ⟨o, h6, hi⟩ : ∃ out, Decoder.convert [] true d = (.ok out, d2) ∧ i = true := by
        rcases h3 with h3 | ⟨e, h3⟩
        · exact h3
        · rw [h3] at h1; cases (Prod.mk.inj h1).1
      have he : d2 = d1 := (Prod.mk.inj (h6.symm.trans h1)).2
      subst he hi
      rw [h.buffer] at h4
      cases given with
      | true =>
        have : d2.life = .finished := by
          rw [h4, Decoder.lived, if_neg (fun hf => absurd (hg.mp hf.1) (by simp))]; rfl
        simp only [decoderCalls, lifeOf, hm, calls_finished ks this]
      | false =>
        have hl : d2.life = .fresh := by
          rw [h4, Decoder.lived, if_pos ⟨hg.mpr rfl, rfl⟩]
        simp only [decoderCalls, lifeOf, hm]
        congr 1
        refine ih ⟨?_, ?_, ?_, by rw [hl]; intro hf; cases hf⟩ false ⟨fun _ => rfl, fun _ => hl⟩ <;>
        · obtain ⟨s', hs⟩ := (convertLoop_spec (c := c) true d.stopWithGarbled ([] : List Byte).length.succ d.state d.sched [] 0 []
            (by simp)).1 (by rw [h.stop]; rfl)
          have hc : Decoder.convert [] true d = (.ok (outOf c true d.state []),
              { d with state := (c.run d.state []).1, sched := s', location := d.location.pushStr (outOf c true d.state []),
                       life := Decoder.lived d.life [] true true, buffer := [] }) := by
            have hs' := hs
            simp only [Decoder.convert, h.buffer, List.nil_append, if_neg h.unfinished]
            simp only [List.length_nil, Nat.succ_eq_add_one, Nat.zero_add] at hs'
            simp only [List.length_nil, Nat.zero_add, hs', List.drop_nil, List.nil_append]
          have := (Prod.mk.inj (h6.symm.trans hc)).2
          first
            | exact (congrArg Decoder.state this).trans h.state
            | exact (congrArg Decoder.stopWithGarbled this).trans h.stop
            | exact congrArg Decoder.buffer this

end Ebnf
