import Verif.Proofs.Growing

set_option autoImplicit false

/-! # Readers without marks, and streams that grow (C96, C97) -/

namespace Ebnf.Props

open Ebnf Ebnf.Spec

/-! ## Any implementation of `CharReader` -/

/-- C96: over any implementation of `CharReader` — it may return fewer characters than it is asked for, whenever it likes —
`read` returns one thing after the other: each character, each error, and `None` where there is nothing to read. -/
theorem c96_read {σ : Type} (readChars : Nat → RM σ Str) (Tells : σ → List Heard → Prop) (h : TellsBy readChars Tells)
    (s : σ) (l : List Heard) (hl : Tells s l) (k : Nat) :
    hearEach (CharReader.read readChars) k s = some ((l ++ List.replicate k Heard.nothing).take k) := hearEach_spec h k s l hl

/-- C96: and `read_all` — the loop is given rounds enough for the characters there are — returns the text up to the point
where there is nothing to read, or the error that comes before that point; it goes on from there the next time. -/
theorem c96_read_all {σ : Type} (readChars : Nat → RM σ Str) (Tells : σ → List Heard → Prop) (h : TellsBy readChars Tells)
    (s : σ) (l : List Heard) (hl : Tells s l) (rounds : Nat) (hr : l.length < rounds) :
    (∃ text s' l', CharReader.readAllLoop readChars rounds s = (.ok text, s') ∧ Tells s' l' ∧
      (l = text.map .char ++ .nothing :: l' ∨ (l = text.map .char ∧ l' = []))) ∨
    (∃ (text : Str) (e : Error) (s' : σ) (l' : List Heard), CharReader.readAllLoop readChars rounds s = (.err e, s') ∧ Tells s' l' ∧
      l = text.map .char ++ .failure e :: l') :=
  readAllLoop_answered h rounds s l hl (Nat.lt_of_le_of_lt (firstRun_le l) hr)

/-- A reader of our own for the examples: it returns a single character per call, and nothing before each character `|`. -/
def hesitant : Nat → RM (Bool × Str) Str
  | 0, s => (.ok [], s)
  | _ + 1, (_, []) => (.ok [], (false, []))
  | _ + 1, (true, ch :: cs) => (.ok [ch], (false, cs))
  | _ + 1, (false, ch :: cs) => if ch = '|' then (.ok [], (true, ch :: cs)) else (.ok [ch], (false, cs))

/-- What it has to tell. -/
def hesitantTells : Bool → Str → List Heard
  | _, [] => []
  | warned, ch :: cs => (if ch = '|' ∧ warned = false then [.nothing] else []) ++ .char ch :: hesitantTells false cs

theorem hesitant_tells : TellsBy hesitant (fun s l => l = hesitantTells s.1 s.2) := by
  rintro (_ | n) ⟨b, cs⟩ l hn rfl
  · omega
  · cases cs with
    | nil => exact .inl ⟨(false, []), [], rfl, rfl, .inr ⟨rfl, rfl⟩⟩
    | cons ch cs =>
      cases b with
      | true => exact .inr (.inl ⟨ch, [], (false, cs), _, rfl, rfl, by simp, by simp [hesitantTells]⟩)
      | false =>
        by_cases hc : ch = '|'
        · exact .inl ⟨(true, ch :: cs), _, by simp [hesitant, hc], rfl, .inl (by simp [hesitantTells, hc])⟩
        · exact .inr (.inl ⟨ch, [], (false, cs), _, by simp [hesitant, hc], rfl, by simp, by simp [hesitantTells, hc]⟩)

example : ∃ s', CharReader.readAllLoop hesitant 6 (false, "ab|c".toList) = (.ok ['a', 'b'], s') ∧
    ∃ s'', CharReader.readAllLoop hesitant 6 s' = (.ok ['|', 'c'], s'') := ⟨_, rfl, _, rfl⟩

/-! ## The readers of the library -/

/-- C96: `BufferedCharReader` is such an implementation: it has its characters to tell. -/
theorem c96_buffered (text : Str) : ∃ Tells, TellsBy Source.readChars Tells ∧ Tells (Source.buffered text) (text.map .char) :=
  ⟨BufferTells, buffered_tellsBy, rfl, rfl⟩

/-- C96: its `read_all` returns the text, and nothing ever after. -/
theorem c96_buffered_read_all (text : Str) (k : Nat) :
    hearAll Source.readAll (k + 1) (Source.buffered text) = some (.ok text :: List.replicate k (.ok [])) := by
  have h : BufferTells (Source.buffered text) (text.map .char) := ⟨rfl, rfl⟩
  rw [hearAll_spec buffered_readAll (k + 1) _ _ h]
  have := answersOf_append text [] []
  rw [List.append_nil, List.nil_append] at this
  rw [this, answersOf, List.cons_append, List.take_succ_cons, List.nil_append, List.take_replicate, Nat.min_eq_left (Nat.le_succ k)]

example : hearAll Source.readAll 2 (Source.buffered "ab".toList) = some [.ok ['a', 'b'], .ok []] := by rfl

/-- C97: `CharDecodeReader` over any byte stream is such an implementation, also if the stream has nothing for a while: a stream
that is at its end now and has more bytes later is read on from there, with the bytes of a character that were left over.  What it
has to tell are the characters of the bytes, the failures of the stream in their places, and the reads that yielded nothing. -/
theorem c97_tells (c : Codec) : ∃ Tells : ByteReader c → List Heard → Prop, TellsBy ByteReader.readChars Tells ∧
    ∀ name chunks sched, Tells (ByteReader.new c name chunks sched) (told c c.init (Location.new name) chunks) :=
  ⟨ByteTells, byteReader_tellsBy, fun name chunks sched => new_byteTells name chunks sched⟩

/-- C97: read with any (non-zero) buffer sizes, on and on, it yields everything in order; nothing is lost, repeated or invented,
and every call yields something or says that there is nothing. -/
theorem c97_reads (c : Codec) (name : Str) (chunks : List (Except Nat (List Byte))) (sched : List (Option Nat))
    (sizes : List Nat) (hs : ∀ n ∈ sizes, 0 < n) :
    ∃ heard k, hear ByteReader.readChars sizes (ByteReader.new c name chunks sched) = some heard ∧
      heard <+: told c c.init (Location.new name) chunks ++ List.replicate k .nothing ∧ sizes.length ≤ heard.length :=
  hear_spec byteReader_tellsBy sizes hs _ _ (new_byteTells name chunks sched)

/-- C97: `read`, again and again. -/
theorem c97_read (c : Codec) (name : Str) (chunks : List (Except Nat (List Byte))) (sched : List (Option Nat)) (k : Nat) :
    hearEach (CharReader.read ByteReader.readChars) k (ByteReader.new c name chunks sched) =
      some ((told c c.init (Location.new name) chunks ++ List.replicate k Heard.nothing).take k) :=
  hearEach_spec byteReader_tellsBy k _ _ (new_byteTells name chunks sched)

/-- C97: `read_all`, again and again: the text that has come since the last time, or an error; then the text in front of the
error is lost. -/
theorem c97_read_all (c : Codec) (name : Str) (chunks : List (Except Nat (List Byte))) (sched : List (Option Nat)) (k : Nat) :
    hearAll ByteReader.readAll k (ByteReader.new c name chunks sched) =
      some ((answersOf [] (told c c.init (Location.new name) chunks) ++ List.replicate k (Except.ok [])).take k) :=
  hearAll_spec byteReader_readAll k _ _ (new_byteTells name chunks sched)

deriving instance DecidableEq for Except

-- The stream ends in the middle of a character, has more later, fails, goes on.
example : hearAll ByteReader.readAll 4
    (ByteReader.new twoByte [] [.ok [0, 97, 0], .ok [], .ok [98, 0, 99], .error 5, .ok [0, 100]] [some 0]) =
    some [.ok ['a'], .error ⟨⟨[], 1, 4⟩, .streamError 5⟩, .ok ['d'], .ok []] := by decide +kernel

/-- C97: if the stream does not end before it is finished, this reader returns, call by call, what the simpler model of the same
reader returns, on which the other theorems about byte streams rest. -/
theorem c97_same (c : Codec) (name : Str) (chunks : List (Except Nat (List Byte))) (hne : .ok [] ∉ chunks)
    (sched : List (Option Nat)) (sizes : List Nat) :
    returned ByteReader.readChars sizes (ByteReader.new c name chunks sched) =
      returned Source.readChars sizes (charDecodeReader c name chunks sched) := by
  have : ∀ (sizes : List Nat) (r : ByteReader c), .ok [] ∉ r.chunks → (∃ st, Ready r.decoder st false) →
      returned ByteReader.readChars sizes r = returned Source.readChars sizes r.source := by
    intro sizes
    induction sizes with
    | nil => intro r _ _; rfl
    | cons n ns ih =>
      intro r h1 h2
      obtain ⟨h3, h4, h5⟩ := readChars_source n r h1 h2
      simp only [returned, h3]
      rw [ih _ h5 h4]
  exact this sizes _ hne ⟨_, new_ready c name false sched⟩

example : returned ByteReader.readChars [1, 5, 1, 1] (ByteReader.new twoByte [] [.ok [0, 97, 0, 98, 0], .error 5, .ok [99]] []) =
    [.ok ['a'], .ok ['b'], .err ⟨⟨[], 1, 3⟩, .streamError 5⟩, .ok ['c']] := by decide +kernel

end Ebnf.Props
