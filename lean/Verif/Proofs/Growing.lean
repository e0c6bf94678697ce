import Verif.Spec.Growing
import Verif.Proofs.Failing

set_option autoImplicit false

/-! # Readers that are told things by a stream (lemmas for C96, C97) -/

namespace Ebnf

open Spec

section Any

variable {σ : Type} {readChars : Nat → RM σ Str} {Tells : σ → List Heard → Prop}

theorem hear_spec (h : TellsBy readChars Tells) (sizes : List Nat) (hs : ∀ n ∈ sizes, 0 < n) :
    ∀ s l, Tells s l → ∃ heard k, hear readChars sizes s = some heard ∧ heard <+: l ++ List.replicate k .nothing ∧
      sizes.length ≤ heard.length := by
  induction sizes with
  | nil => exact fun s l _ => ⟨[], 0, rfl, List.nil_prefix, Nat.le_refl _⟩
  | cons n ns ih =>
    intro s l hl
    have ih := ih (fun m hm => hs m (by simp [hm]))
    rcases h n s l (hs n (by simp)) hl with ⟨s', l', h1, hl', h2⟩ | ⟨x, xs, s', l', h1, hl', h2, h3⟩ | ⟨e, s', l', h1, hl', h2⟩
    · obtain ⟨heard, k, h3, h4, h5⟩ := ih s' l' hl'
      rcases h2 with h2 | ⟨h2, h2'⟩
      · refine ⟨.nothing :: heard, k, by simp only [hear, h1, h3, Option.map_some], ?_, by simp; omega⟩
        rw [h2]; exact List.cons_prefix_cons.2 ⟨rfl, h4⟩
      · refine ⟨.nothing :: heard, k + 1, by simp only [hear, h1, h3, Option.map_some], ?_, by simp; omega⟩
        rw [h2, List.nil_append, List.replicate_succ]
        rw [h2', List.nil_append] at h4
        exact List.cons_prefix_cons.2 ⟨rfl, h4⟩
    · obtain ⟨heard, k, h4, h5, h6⟩ := ih s' l' hl'
      refine ⟨(x :: xs).map .char ++ heard, k, by simp only [hear, h1, h4, Option.map_some], ?_, by simp; omega⟩
      rw [h3, List.append_assoc]; exact (List.prefix_append_right_inj _).2 h5
    · obtain ⟨heard, k, h4, h5, h6⟩ := ih s' l' hl'
      refine ⟨.failure e :: heard, k, by simp only [hear, h1, h4, Option.map_some], ?_, by simp; omega⟩
      rw [h2]; exact List.cons_prefix_cons.2 ⟨rfl, h5⟩

theorem take_more {α : Type} (l : List α) (a : α) (k : Nat) :
    (l ++ List.replicate (k + 1) a).take k = (l ++ List.replicate k a).take k := by
  rw [List.replicate_succ', ← List.append_assoc, List.take_append_of_le_length (by simp)]

theorem hearEach_spec (h : TellsBy readChars Tells) (k : Nat) :
    ∀ s l, Tells s l → hearEach (CharReader.read readChars) k s = some ((l ++ List.replicate k Heard.nothing).take k) := by
  induction k with
  | zero => intro s l _; rfl
  | succ k ih =>
    intro s l hl
    have hr : ∀ r s', readChars 1 s = (r, s') → CharReader.read readChars s =
        (match r with | .ok cs => .ok cs.head? | .err e => .err e | .panic p => .panic p | .diverge => .diverge, s') := by
      intro r s' h1
      simp only [CharReader.read, RM.bind_run, h1]
      cases r <;> rfl
    rcases h 1 s l (by omega) hl with ⟨s', l', h1, hl', h2⟩ | ⟨x, xs, s', l', h1, hl', h2, h3⟩ | ⟨e, s', l', h1, hl', h2⟩
    · simp only [hearEach, hr _ _ h1, List.head?_nil, ih s' l' hl', Option.map_some]
      rcases h2 with h2 | ⟨h2, h2'⟩
      · rw [h2, List.cons_append, List.take_succ_cons, take_more]
      · rw [h2, h2', List.nil_append, List.nil_append, List.replicate_succ, List.take_succ_cons]
    · obtain rfl : xs = [] := by
        cases xs with
        | nil => rfl
        | cons y ys => simp at h2
      simp only [hearEach, hr _ _ h1, List.head?_cons, ih s' l' hl', Option.map_some]
      rw [h3, List.map_cons, List.map_nil, List.cons_append, List.nil_append, List.cons_append, List.take_succ_cons, take_more]
    · simp only [hearEach, hr _ _ h1, ih s' l' hl', Option.map_some]
      rw [h2, List.cons_append, List.take_succ_cons, take_more]

/-- The number of characters that come before anything else. -/
def firstRun : List Heard → Nat
  | .char _ :: hs => firstRun hs + 1
  | _ => 0

theorem firstRun_append (cs : Str) (hs : List Heard) : firstRun (cs.map .char ++ hs) = cs.length + firstRun hs := by
  induction cs with
  | nil => simp
  | cons x xs ih => simp only [List.map_cons, List.cons_append, firstRun, ih, List.length_cons]; omega

theorem answersOf_append (cs : Str) : ∀ (text : Str) (hs : List Heard),
    answersOf text (cs.map .char ++ hs) = answersOf (text ++ cs) hs := by
  induction cs with
  | nil => simp
  | cons x xs ih => intro text hs; simp only [List.map_cons, List.cons_append, answersOf, ih, List.append_assoc, List.nil_append]

theorem firstRun_le (l : List Heard) : firstRun l ≤ l.length := by
  induction l with
  | nil => exact Nat.le_refl _
  | cons x xs ih => cases x <;> simp [firstRun, ih]

/-- What one `read_all` returns, and what the reader tells afterwards. -/
def Answered (Tells : σ → List Heard → Prop) (l : List Heard) (y : Res Str × σ) : Prop :=
  (∃ text s' l', y = (.ok text, s') ∧ Tells s' l' ∧ (l = text.map .char ++ .nothing :: l' ∨ (l = text.map .char ∧ l' = []))) ∨
  (∃ (text : Str) (e : Error) (s' : σ) (l' : List Heard), y = (.err e, s') ∧ Tells s' l' ∧ l = text.map .char ++ .failure e :: l')

theorem readAllLoop_answered (h : TellsBy readChars Tells) (fuel : Nat) : ∀ s l, Tells s l → firstRun l < fuel →
    Answered Tells l (CharReader.readAllLoop readChars fuel s) := by
  induction fuel with
  | zero => intro s l _ hf; omega
  | succ fuel ih =>
    intro s l hl hf
    rcases h 1024 s l (by omega) hl with ⟨s', l', h1, hl', h2⟩ | ⟨x, xs, s', l', h1, hl', h2, h3⟩ | ⟨e, s', l', h1, hl', h2⟩
    · have he : CharReader.readAllLoop readChars (fuel + 1) s = (.ok [], s') := by
        simp only [CharReader.readAllLoop, RM.bind_run, h1]; rfl
      exact .inl ⟨[], s', l', he, hl', h2⟩
    · have hf' : firstRun l' < fuel := by
        rw [h3, firstRun_append] at hf; simp only [List.length_cons] at hf; omega
      have he : CharReader.readAllLoop readChars (fuel + 1) s =
          (match CharReader.readAllLoop readChars fuel s' with
           | (.ok more, s'') => (.ok ((x :: xs) ++ more), s'')
           | (.err e, s'') => (.err e, s'')
           | (.panic p, s'') => (.panic p, s'')
           | (.diverge, s'') => (.diverge, s'')) := by
        rw [CharReader.readAllLoop]
        simp only [RM.bind_run, h1, List.isEmpty_cons, Bool.false_eq_true, if_false]
        generalize CharReader.readAllLoop readChars fuel s' = y
        obtain ⟨r, s''⟩ := y
        cases r <;> rfl
      rw [he, h3]
      rcases ih s' l' hl' hf' with ⟨text, s'', l'', h4, h5, h6⟩ | ⟨text, e, s'', l'', h4, h5, h6⟩
      · rw [h4]
        refine .inl ⟨(x :: xs) ++ text, s'', l'', rfl, h5, ?_⟩
        rw [List.map_append, List.append_assoc]
        rcases h6 with h6 | ⟨h6, h7⟩
        · exact .inl (by rw [h6])
        · exact .inr ⟨by rw [h6], h7⟩
      · rw [h4]
        refine .inr ⟨(x :: xs) ++ text, e, s'', l'', rfl, h5, ?_⟩
        rw [List.map_append, List.append_assoc, h6]
    · have he : CharReader.readAllLoop readChars (fuel + 1) s = (.err e, s') := by
        simp only [CharReader.readAllLoop, RM.bind_run, h1]
      exact .inr ⟨[], e, s', l', he, hl', h2⟩

theorem hearAll_spec {readAll : RM σ Str} (h : ∀ s l, Tells s l → Answered Tells l (readAll s)) (k : Nat) :
    ∀ s l, Tells s l → hearAll readAll k s = some ((answersOf [] l ++ List.replicate k (Except.ok [])).take k) := by
  induction k with
  | zero => intro s l _; rfl
  | succ k ih =>
    intro s l hl
    rw [hearAll]
    rcases h s l hl with ⟨text, s', l', h4, h5, h6⟩ | ⟨text, e, s', l', h4, h5, h6⟩
    · simp only [h4, ih s' l' h5, Option.map_some]
      rcases h6 with rfl | ⟨rfl, rfl⟩
      · rw [answersOf_append, List.nil_append, answersOf, List.cons_append, List.take_succ_cons, take_more]
      · have := answersOf_append text [] []
        rw [List.append_nil, List.nil_append] at this
        rw [this]
        simp only [answersOf, List.cons_append, List.nil_append, List.take_succ_cons, ← List.replicate_succ]
    · simp only [h4, ih s' l' h5, Option.map_some]
      rw [h6, answersOf_append, answersOf, List.cons_append, List.take_succ_cons, take_more]

end Any

/-! ## `CharDecodeReader` -/

variable {c : Codec}

/-- A `CharDecodeReader` between two calls, and what it still has to tell. -/
def ByteTells (r : ByteReader c) (l : List Heard) : Prop :=
  ∃ st, Ready r.decoder st false ∧ l = r.pending.map .char ++ told c st (r.location.pushStr r.pending) r.chunks

theorem new_byteTells (name : Str) (chunks : List (Except Nat (List Byte))) (sched : List (Option Nat)) :
    ByteTells (ByteReader.new c name chunks sched) (told c c.init (Location.new name) chunks) :=
  ⟨c.init, new_ready c name false sched, rfl⟩

theorem readLoop_tells (n : Nat) (hn : 0 < n) (here : Location) (chunks : List (Except Nat (List Byte))) :
    ∀ {d : Decoder c} {st : c.State}, Ready d st false →
    (∃ r' l', ByteReader.readLoop n here chunks d = (.ok [], r') ∧ ByteTells r' l' ∧
      (told c st here chunks = .nothing :: l' ∨ (told c st here chunks = [] ∧ l' = []))) ∨
    (∃ x xs r' l', ByteReader.readLoop n here chunks d = (.ok (x :: xs), r') ∧ ByteTells r' l' ∧ (x :: xs).length ≤ n ∧
      told c st here chunks = (x :: xs).map .char ++ l') ∨
    (∃ e r' l', ByteReader.readLoop n here chunks d = (.err e, r') ∧ ByteTells r' l' ∧ told c st here chunks = .failure e :: l') := by
  induction chunks with
  | nil => intro d st h; exact .inl ⟨_, [], rfl, ⟨st, h, rfl⟩, .inr ⟨rfl, rfl⟩⟩
  | cons y ys ih =>
    intro d st h
    cases y with
    | error code => exact .inr (.inr ⟨_, _, told c st here ys, rfl, ⟨st, h, rfl⟩, rfl⟩)
    | ok bytes =>
      cases bytes with
      | nil => exact .inl ⟨_, told c st here ys, rfl, ⟨st, h, rfl⟩, .inl rfl⟩
      | cons b bs =>
        obtain ⟨d', h1, h2⟩ := push_spec h (b :: bs)
        simp only [ByteReader.readLoop, h1, told]
        generalize decodeOpen c st (b :: bs) = out
        cases out with
        | nil => simpa only [List.isEmpty_nil, if_true, List.map_nil, List.nil_append, Location.pushStr_nil] using ih h2
        | cons z zs =>
          obtain ⟨k, rfl⟩ : ∃ k, n = k + 1 := ⟨n - 1, by omega⟩
          refine .inr (.inl ⟨z, zs.take k, ⟨ys, d', zs.drop k, here.pushStr (z :: zs.take k)⟩, _, ?_,
            ⟨_, h2, rfl⟩, by simp [List.length_take]; omega, ?_⟩)
          · simp only [List.isEmpty_cons, Bool.false_eq_true, if_false, List.take_succ_cons, List.drop_succ_cons]
          · simp only [← Location.pushStr_append, ← List.append_assoc, ← List.map_append, List.cons_append, List.take_append_drop]

theorem byteReader_tellsBy : TellsBy (ByteReader.readChars (c := c)) ByteTells := by
  intro n r l hn h
  obtain ⟨chunks, d, pending, here⟩ := r
  obtain ⟨st, h1, rfl⟩ := h
  cases pending with
  | nil =>
    have := readLoop_tells n hn here chunks h1
    simpa only [ByteReader.readChars, List.isEmpty_nil, Bool.not_true, Bool.false_eq_true, if_false, List.map_nil,
      List.nil_append, Location.pushStr_nil] using this
  | cons y ys =>
    obtain ⟨k, rfl⟩ : ∃ k, n = k + 1 := ⟨n - 1, by omega⟩
    refine .inr (.inl ⟨y, ys.take k, ⟨chunks, d, ys.drop k, here.pushStr (y :: ys.take k)⟩, _, ?_, ⟨st, h1, rfl⟩,
      by simp [List.length_take]; omega, ?_⟩)
    · simp only [ByteReader.readChars, List.isEmpty_cons, Bool.not_false, if_true, List.take_succ_cons, List.drop_succ_cons]
    · simp only [← Location.pushStr_append, ← List.append_assoc, ← List.map_append, List.cons_append, List.take_append_drop]

theorem firstRun_told (chunks : List (Except Nat (List Byte))) (here : Location) : ∀ {d : Decoder c} {st : c.State}, Ready d st false →
    firstRun (told c st here chunks) ≤ ((decodeRounds d chunks).map fun | .ok s => s.length | .error _ => 0).sum := by
  induction chunks generalizing here with
  | nil => intro d st _; simp [told, firstRun]
  | cons y ys ih =>
    intro d st h
    cases y with
    | error code => simp [told, firstRun]
    | ok bytes =>
      cases bytes with
      | nil => simp [told, firstRun]
      | cons b bs =>
        obtain ⟨d', h1, h2⟩ := push_spec h (b :: bs)
        simp only [told, firstRun_append, decodeRounds, h1, List.map_cons, List.sum_cons]
        exact Nat.add_le_add_left (ih _ h2) _

theorem byteReader_readAll (r : ByteReader c) (l : List Heard) (h : ByteTells r l) : Answered ByteTells l (ByteReader.readAll r) := by
  refine readAllLoop_answered byteReader_tellsBy _ r l h ?_
  obtain ⟨st, h1, rfl⟩ := h
  have := firstRun_told r.chunks (r.location.pushStr r.pending) h1
  rw [firstRun_append, ByteReader.size]
  exact Nat.lt_succ_of_le (Nat.add_le_add_left this _)

/-! ## `BufferedCharReader` -/

/-- A `BufferedCharReader`, and what it has to tell. -/
def BufferTells (s : Source) (l : List Heard) : Prop := s.rounds = [] ∧ l = s.pending.map .char

theorem buffered_tellsBy : TellsBy Source.readChars BufferTells := by
  intro n s l hn h
  obtain ⟨pending, rounds, here⟩ := s
  obtain ⟨rfl, rfl⟩ := h
  cases pending with
  | nil => exact .inl ⟨⟨[], [], here⟩, [], rfl, ⟨rfl, rfl⟩, .inr ⟨rfl, rfl⟩⟩
  | cons y ys =>
    obtain ⟨k, rfl⟩ : ∃ k, n = k + 1 := ⟨n - 1, by omega⟩
    refine .inr (.inl ⟨y, ys.take k, ⟨ys.drop k, [], here.pushStr (y :: ys.take k)⟩, _, ?_, ⟨rfl, rfl⟩,
      by simp [List.length_take]; omega, ?_⟩)
    · simp only [Source.readChars, List.isEmpty_cons, Bool.not_false, if_true, List.take_succ_cons, List.drop_succ_cons]
    · simp only [← List.map_append, List.cons_append, List.take_append_drop]

theorem buffered_readAll (s : Source) (l : List Heard) (h : BufferTells s l) : Answered BufferTells l (Source.readAll s) := by
  refine readAllLoop_answered buffered_tellsBy _ s l h ?_
  obtain ⟨h1, rfl⟩ := h
  have := firstRun_append s.pending []
  rw [List.append_nil] at this
  rw [this, Source.size, h1]
  simp [firstRun]

/-! ## The two models of `CharDecodeReader` -/

/-- The simpler model of the same reader. -/
def ByteReader.source (r : ByteReader c) : Source := ⟨r.pending, decodeRounds r.decoder r.chunks, r.location⟩

theorem readLoop_source (n : Nat) (here : Location) (chunks : List (Except Nat (List Byte))) (hne : .ok [] ∉ chunks) :
    ∀ {d : Decoder c} {st : c.State}, Ready d st false →
    Source.readRounds n (decodeRounds d chunks) here =
      ((ByteReader.readLoop n here chunks d).1, (ByteReader.readLoop n here chunks d).2.source) ∧
    (∃ st, Ready (ByteReader.readLoop n here chunks d).2.decoder st false) ∧
    .ok [] ∉ (ByteReader.readLoop n here chunks d).2.chunks := by
  induction chunks with
  | nil => intro d st h; exact ⟨rfl, ⟨st, h⟩, hne⟩
  | cons y ys ih =>
    intro d st h
    have hne' : .ok [] ∉ ys := fun h => hne (by simp [h])
    cases y with
    | error code => exact ⟨rfl, ⟨st, h⟩, hne'⟩
    | ok bytes =>
      cases bytes with
      | nil => exact absurd (by simp) hne
      | cons b bs =>
        obtain ⟨d', h1, h2⟩ := push_spec h (b :: bs)
        simp only [ByteReader.readLoop, h1, decodeRounds, Source.readRounds]
        generalize decodeOpen c st (b :: bs) = out
        cases out with
        | nil => simpa only [List.isEmpty_nil, if_true] using ih hne' h2
        | cons z zs =>
          simp only [List.isEmpty_cons, Bool.false_eq_true, if_false]
          exact ⟨rfl, ⟨_, h2⟩, hne'⟩

theorem readChars_source (n : Nat) (r : ByteReader c) (hne : .ok [] ∉ r.chunks) (h : ∃ st, Ready r.decoder st false) :
    Source.readChars n r.source = ((ByteReader.readChars n r).1, (ByteReader.readChars n r).2.source) ∧
    (∃ st, Ready (ByteReader.readChars n r).2.decoder st false) ∧ .ok [] ∉ (ByteReader.readChars n r).2.chunks := by
  obtain ⟨chunks, d, pending, here⟩ := r
  cases pending with
  | nil =>
    obtain ⟨st, h⟩ := h
    exact readLoop_source n here chunks hne h
  | cons y ys => exact ⟨rfl, h, hne⟩

end Ebnf
