import Verif.Spec.Failing
import Verif.Spec.Faults
import Verif.Proofs.Decoder
import Verif.Proofs.ErrorFacts

set_option autoImplicit false

/-! # Byte streams that fail (lemmas for C30, C59, C60) -/

namespace Ebnf

open Spec

variable {c : Codec}

/-- What decoded rounds have to say. -/
def roundsSay : Location → List (Except Nat Str) → List (Char ⊕ Error)
  | _, [] => []
  | here, .error code :: rs => .inr ⟨here, .streamError code⟩ :: roundsSay here rs
  | here, .ok cs :: rs => cs.map .inl ++ roundsSay (here.pushStr cs) rs

/-- What a source still has to say. -/
def sourceSays (s : Source) : List (Char ⊕ Error) :=
  s.pending.map .inl ++ roundsSay (s.location.pushStr s.pending) s.rounds

theorem decodeRounds_says {d : Decoder c} {st : c.State} (h : Ready d st false) (chunks : List (Except Nat (List Byte)))
    (hne : .ok [] ∉ chunks) (here : Location) : roundsSay here (decodeRounds d chunks) = toSay c st here chunks := by
  induction chunks generalizing d st here with
  | nil => rfl
  | cons x xs ih =>
    have h2 : .ok [] ∉ xs := fun h => hne (by simp [h])
    cases x with
    | error e => simp only [decodeRounds, roundsSay, toSay, ih h h2]
    | ok bytes =>
      obtain ⟨d', h3, h4⟩ := push_spec h bytes
      cases bytes with
      | nil => exact absurd (by simp) hne
      | cons b bs => simp only [decodeRounds, h3, roundsSay, toSay, ih h4 h2]

theorem decodeRounds_supplies {d : Decoder c} {st : c.State} (h : Ready d st false) (chunks : List (Except Nat (List Byte)))
    (hne : .ok [] ∉ chunks) : SuppliesIn (decodeRounds d chunks) (decodeOpen c st (bytesOf chunks)) (codesOf chunks) := by
  induction chunks generalizing d st with
  | nil => exact .nil
  | cons x xs ih =>
    have h2 : .ok [] ∉ xs := fun h => hne (by simp [h])
    cases x with
    | error e => simpa only [decodeRounds, bytesOf, codesOf, List.filterMap_cons] using SuppliesIn.fault (ih h h2)
    | ok bytes =>
      obtain ⟨d', h3, h4⟩ := push_spec h bytes
      cases bytes with
      | nil => exact absurd (by simp) hne
      | cons b bs =>
        have h5 : decodeOpen c st (bytesOf (.ok (b :: bs) :: xs)) =
            decodeOpen c st (b :: bs) ++ decodeOpen c (c.run st (b :: bs)).1 (bytesOf xs) := by
          have : bytesOf (.ok (b :: bs) :: xs) = (b :: bs) ++ bytesOf xs := by simp [bytesOf]
          rw [this, decodeOpen_eq, decodeOpen_eq, decodeOpen_eq, run_append]
        have h6 : codesOf (.ok (b :: bs) :: xs) = codesOf xs := by simp [codesOf]
        rw [h5, h6]
        simp only [decodeRounds, h3]
        exact .piece (ih h4 h2)

/-- One `read_chars`. -/
theorem readRounds_says (n : Nat) (hn : 0 < n) (rs : List (Except Nat Str)) (here : Location) :
    (∃ s', Source.readRounds n rs here = (.ok [], s') ∧ roundsSay here rs = []) ∨
    (∃ x xs s', Source.readRounds n rs here = (.ok (x :: xs), s') ∧ roundsSay here rs = (x :: xs).map .inl ++ sourceSays s') ∨
    (∃ e s', Source.readRounds n rs here = (.err e, s') ∧ roundsSay here rs = .inr e :: sourceSays s') := by
  induction rs with
  | nil => exact .inl ⟨_, rfl, rfl⟩
  | cons r rs ih =>
    cases r with
    | error code => exact .inr (.inr ⟨_, _, rfl, by simp [roundsSay, sourceSays]⟩)
    | ok cs =>
      cases cs with
      | nil => simpa only [Source.readRounds, roundsSay, List.isEmpty_nil, if_true, List.map_nil, List.nil_append,
          Location.pushStr_nil] using ih
      | cons y ys =>
        obtain ⟨k, rfl⟩ : ∃ k, n = k + 1 := ⟨n - 1, by omega⟩
        refine .inr (.inl ⟨y, ys.take k, ⟨ys.drop k, rs, here.pushStr (y :: ys.take k)⟩, ?_, ?_⟩)
        · simp only [Source.readRounds, List.isEmpty_cons, Bool.false_eq_true, if_false, List.take_succ_cons, List.drop_succ_cons]
        · simp only [sourceSays, roundsSay, ← Location.pushStr_append, ← List.append_assoc, ← List.map_append,
            List.cons_append, List.take_append_drop]

theorem readChars_says (n : Nat) (hn : 0 < n) (s : Source) :
    (∃ s', Source.readChars n s = (.ok [], s') ∧ sourceSays s = []) ∨
    (∃ x xs s', Source.readChars n s = (.ok (x :: xs), s') ∧ sourceSays s = (x :: xs).map .inl ++ sourceSays s') ∨
    (∃ e s', Source.readChars n s = (.err e, s') ∧ sourceSays s = .inr e :: sourceSays s') := by
  obtain ⟨pending, rounds, here⟩ := s
  cases pending with
  | nil =>
    have := readRounds_says n hn rounds here
    simpa only [Source.readChars, sourceSays, List.isEmpty_nil, Bool.not_true, Bool.false_eq_true, if_false, List.map_nil,
      List.nil_append, Location.pushStr_nil] using this
  | cons y ys =>
    obtain ⟨k, rfl⟩ : ∃ k, n = k + 1 := ⟨n - 1, by omega⟩
    refine .inr (.inl ⟨y, ys.take k, ⟨ys.drop k, rounds, here.pushStr (y :: ys.take k)⟩, ?_, ?_⟩)
    · simp only [Source.readChars, List.isEmpty_cons, Bool.not_false, if_true, List.take_succ_cons, List.drop_succ_cons]
    · simp only [sourceSays, ← Location.pushStr_append, ← List.append_assoc, ← List.map_append,
        List.cons_append, List.take_append_drop]

theorem listen_spec (sizes : List Nat) (hs : ∀ n ∈ sizes, 0 < n) (s : Source) :
    ∃ heard done, listen sizes s = some (heard, done) ∧ heard <+: sourceSays s ∧ (done = true → heard = sourceSays s) ∧
      ((sourceSays s).length < sizes.length → done = true) := by
  induction sizes generalizing s with
  | nil => exact ⟨[], false, rfl, List.nil_prefix, by simp, by simp⟩
  | cons n ns ih =>
    have hns : ∀ m ∈ ns, 0 < m := fun m hm => hs m (by simp [hm])
    rcases readChars_says n (hs n (by simp)) s with ⟨s', h1, h2⟩ | ⟨x, xs, s', h1, h2⟩ | ⟨e, s', h1, h2⟩
    · exact ⟨[], true, by simp only [listen, h1], List.nil_prefix, fun _ => h2.symm, fun _ => rfl⟩
    · obtain ⟨heard, done, h3, h4, h5, h6⟩ := ih hns s'
      refine ⟨(x :: xs).map .inl ++ heard, done, by simp only [listen, h1, h3, Option.map_some], ?_, fun h => by rw [h2, h5 h], fun h => h6 ?_⟩
      · rw [h2]; exact (List.prefix_append_right_inj _).2 h4
      · rw [h2] at h; simp at h; omega
    · obtain ⟨heard, done, h3, h4, h5, h6⟩ := ih hns s'
      refine ⟨.inr e :: heard, done, by simp only [listen, h1, h3, Option.map_some], ?_, fun h => by rw [h2, h5 h], fun h => h6 ?_⟩
      · rw [h2]; exact List.cons_prefix_cons.2 ⟨rfl, h4⟩
      · rw [h2] at h; simp at h; omega

/-! ## `lex::parse` -/

/-- The loop of `lex::parse` over chunks followed by an I/O error. -/
theorem parseLoop_failing (io : Nat) (more : List (Except Nat (List Byte))) (chunks : List (List Byte)) (hne : ∀ x ∈ chunks, x ≠ []) :
    ∀ {d : Decoder c} {st : c.State} (_ : Ready d st false) (l : Lexer),
      parseLoop d l (chunks.map .ok ++ .error io :: more) =
        match pushAll (outputs c st chunks) l with
        | (.ok _, l') => .err ⟨l'.tokenizer.location, .ioError io⟩
        | (.err e, _) => .err e
        | (.panic p, _) => .panic p
        | (.diverge, _) => .diverge := by
  induction chunks with
  | nil => intro d st h l; rfl
  | cons x xs ih =>
    intro d st h l
    obtain ⟨d1, h1, h2⟩ := push_spec h x
    have hx := hne x (by simp)
    have h5 := ih (fun y hy => hne y (by simp [hy])) h2
    cases x with
    | nil => exact absurd rfl hx
    | cons b bs =>
      simp only [List.map_cons, List.cons_append, parseLoop, h1, outputs, pushAll, RM.bind_run]
      generalize Lexer.pushStr (decodeOpen c st (b :: bs)) l = y
      obtain ⟨r, l1⟩ := y
      cases r with
      | ok rules =>
        simp only
        rw [h5]
        generalize pushAll (outputs c (c.run st (b :: bs)).1 xs) l1 = z
        obtain ⟨r2, l2⟩ := z
        cases r2 <;> rfl
      | err e => rfl
      | panic p => rfl
      | diverge => rfl

theorem parse_failing (c : Codec) (name : Str) (io : Nat) (more : List (Except Nat (List Byte))) (chunks : List (List Byte))
    (hne : ∀ x ∈ chunks, x ≠ []) (limit : Nat) (sched : List (Option Nat)) :
    parse c name (chunks.map .ok ++ .error io :: more) limit sched =
      match pushAll (outputs c c.init chunks) (Lexer.withCapacity name limit) with
      | (.ok _, l') => .err ⟨l'.tokenizer.location, .ioError io⟩
      | (.err e, _) => .err e
      | (.panic p, _) => .panic p
      | (.diverge, _) => .diverge := by
  rw [parse, parseLoop_failing io more chunks hne (new_ready c name false sched)]
  generalize pushAll (outputs c c.init chunks) (Lexer.withCapacity name limit) = y
  obtain ⟨r, l1⟩ := y
  cases r <;> rfl

/-- Nothing is read after the end. -/
theorem decodeRounds_end {c : Codec} (more : List (Except Nat (List Byte))) (chunks : List (Except Nat (List Byte))) :
    ∀ d : Decoder c, decodeRounds d (chunks ++ .ok [] :: more) = decodeRounds d chunks := by
  induction chunks with
  | nil => intro d; simp [decodeRounds]
  | cons x cs ih =>
    intro d
    cases x with
    | error e => simp [decodeRounds, ih]
    | ok bytes =>
      cases bytes with
      | nil => simp [decodeRounds]
      | cons b bs => simp [decodeRounds, ih]

theorem parseLoop_end {c : Codec} (more : List (Except Nat (List Byte))) (chunks : List (Except Nat (List Byte))) :
    ∀ (d : Decoder c) (l : Lexer), parseLoop d l (chunks ++ .ok [] :: more) = parseLoop d l chunks := by
  induction chunks with
  | nil => intro d l; simp [parseLoop]
  | cons x cs ih =>
    intro d l
    cases x with
    | error e => simp [parseLoop]
    | ok bytes =>
      cases bytes with
      | nil => simp [parseLoop]
      | cons b bs => simp [parseLoop, ih]

end Ebnf
