import Verif.Proofs.ReadNext

set_option autoImplicit false

/-! # Lemmas about the tokenizer loop -/

namespace Ebnf

open Spec

/-- Prepend a token to the outcome of the loop. -/
def consTok (tk : Token) : Res (List Token) × Location × Str → Res (List Token) × Location × Str
  | (.ok tks, l, r) => (.ok (tk :: tks), l, r)
  | r => r

/-- Prepend tokens to the outcome of the loop. -/
def prependTok (ts : List Token) : Res (List Token) × Location × Str → Res (List Token) × Location × Str
  | (.ok tks, l, r) => (.ok (ts ++ tks), l, r)
  | r => r

theorem prependTok_nil (x : Res (List Token) × Location × Str) : prependTok [] x = x := by
  rcases x with ⟨r, l, s⟩; cases r <;> rfl

theorem prependTok_cons (t : Token) (ts : List Token) (x : Res (List Token) × Location × Str) :
    prependTok (t :: ts) x = consTok t (prependTok ts x) := by
  rcases x with ⟨r, l, s⟩; cases r <;> rfl

theorem tokenizeLoop_succ (fuel : Nat) (loc : Location) (rest : Str) :
    Tokenizer.tokenizeLoop (fuel + 1) loc rest =
      if rest.isEmpty then (.ok [], loc, rest)
      else match readNext loc rest false with
        | .ok none => (.ok [], loc, rest)
        | .ok (some (tk, n)) =>
          consTok tk (Tokenizer.tokenizeLoop fuel (loc.pushStr (rest.take n)) (rest.drop n))
        | .err e => (.err e, loc, rest)
        | .panic p => (.panic p, loc, rest)
        | .diverge => (.diverge, loc, rest) := by
  rw [Tokenizer.tokenizeLoop]
  split
  · rfl
  · cases h : readNext loc rest false with
    | ok o =>
      cases o with
      | none => rfl
      | some x =>
        obtain ⟨tk, n⟩ := x
        simp only
        rcases Tokenizer.tokenizeLoop fuel (loc.pushStr (rest.take n)) (rest.drop n) with ⟨r, l, s⟩
        cases r <;> rfl
    | err e => rfl
    | panic p => rfl
    | diverge => rfl

theorem tokenizeLoop_fuel (f g : Nat) (loc : Location) (rest : Str) (hf : rest.length ≤ f)
    (hg : rest.length ≤ g) : Tokenizer.tokenizeLoop f loc rest = Tokenizer.tokenizeLoop g loc rest := by
  induction f generalizing g loc rest with
  | zero =>
    have : rest = [] := List.length_eq_zero_iff.mp (by omega)
    subst this
    cases g with
    | zero => rfl
    | succ g => simp [Tokenizer.tokenizeLoop]
  | succ f ih =>
    cases g with
    | zero =>
      have : rest = [] := List.length_eq_zero_iff.mp (by omega)
      subst this
      simp [Tokenizer.tokenizeLoop]
    | succ g =>
      rw [tokenizeLoop_succ, tokenizeLoop_succ]
      split
      · rfl
      · split <;> first | rfl | skip
        rename_i tk n h
        have hr := readNext_sound _ _ _ _ _ h
        have := hr.pos
        have := hr.le
        rw [ih g _ _ (by simp; omega) (by simp; omega)]

/-- The tokenizer loop with enough fuel. -/
def tokLoop (loc : Location) (rest : Str) : Res (List Token) × Location × Str :=
  Tokenizer.tokenizeLoop rest.length loc rest

theorem tokLoop_nil (loc : Location) : tokLoop loc [] = (.ok [], loc, []) := rfl

theorem tokLoop_none {loc : Location} {rest : Str} (h : readNext loc rest false = .ok none) :
    tokLoop loc rest = (.ok [], loc, rest) := by
  cases rest with
  | nil => rfl
  | cons c cs => rw [tokLoop, List.length_cons, tokenizeLoop_succ]; simp [h]

theorem tokLoop_some {loc : Location} {rest : Str} {tk : Token} {n : Nat}
    (h : readNext loc rest false = .ok (some (tk, n))) :
    tokLoop loc rest = consTok tk (tokLoop (loc.pushStr (rest.take n)) (rest.drop n)) := by
  cases rest with
  | nil => simp [readNext] at h
  | cons c cs =>
    have hr := readNext_sound _ _ _ _ _ h
    have := hr.pos
    have := hr.le
    rw [tokLoop, List.length_cons, tokenizeLoop_succ]; simp only [h]
    simp only [List.isEmpty_cons, Bool.false_eq_true, if_false]
    congr 1
    exact tokenizeLoop_fuel _ _ _ _ (by simp; omega) (Nat.le_refl _)

theorem tokLoop_err {loc : Location} {rest : Str} {e : Error} (h : readNext loc rest false = .err e) :
    tokLoop loc rest = (.err e, loc, rest) := by
  cases rest with
  | nil => simp [readNext] at h
  | cons c cs => rw [tokLoop, List.length_cons, tokenizeLoop_succ]; simp [h]

/-- Case analysis and induction along the loop. -/
theorem tokLoop_induct {P : Location → Str → Prop}
    (hnone : ∀ loc rest, readNext loc rest false = .ok none → P loc rest)
    (hsome : ∀ loc rest tk n, readNext loc rest false = .ok (some (tk, n)) →
      P (loc.pushStr (rest.take n)) (rest.drop n) → P loc rest)
    (herr : ∀ loc rest e, readNext loc rest false = .err e → P loc rest)
    (loc : Location) (rest : Str) : P loc rest := by
  generalize hn : rest.length = k
  induction k using Nat.strongRecOn generalizing loc rest with
  | _ k ih =>
    rcases readNext_settled loc rest false with ⟨o, h⟩ | ⟨e, h⟩
    · cases o with
      | none => exact hnone _ _ h
      | some x =>
        obtain ⟨tk, n⟩ := x
        have hr := readNext_sound _ _ _ _ _ h
        have := hr.pos
        have := hr.le
        exact hsome _ _ _ _ h (ih _ (by simp; omega) _ _ rfl)
    · exact herr _ _ _ h

theorem tokLoop_settled (loc : Location) (rest : Str) : Settled (tokLoop loc rest).1 := by
  induction loc, rest using tokLoop_induct with
  | hnone loc rest h => rw [tokLoop_none h]; exact settled_ok _
  | hsome loc rest tk n h ih =>
    rw [tokLoop_some h]
    revert ih
    rcases tokLoop (loc.pushStr (rest.take n)) (rest.drop n) with ⟨r, l, s⟩
    rintro (⟨a, h⟩ | ⟨e, h⟩)
    · simp at h; subst h; exact settled_ok _
    · simp at h; subst h; exact settled_err _
  | herr loc rest e h => rw [tokLoop_err h]; exact settled_err _

/-- The part of a text left in the buffer: nothing, or something `readNext` cannot decide yet. -/
def Pending (loc : Location) (rest : Str) : Prop := readNext loc rest false = .ok none

theorem pending_nil (loc : Location) : Pending loc [] := rfl

theorem tokLoop_ok {loc : Location} {rest : Str} {tks : List Token} {loc' : Location} {rest' : Str}
    (h : tokLoop loc rest = (.ok tks, loc', rest')) :
    Pending loc' rest' ∧ ∃ used, rest = used ++ rest' ∧ loc' = loc.pushStr used := by
  induction loc, rest using tokLoop_induct generalizing tks loc' rest' with
  | hnone loc rest hn =>
    rw [tokLoop_none hn] at h
    simp at h; obtain ⟨rfl, rfl, rfl⟩ := h
    exact ⟨hn, [], by simp⟩
  | hsome loc rest tk n hs ih =>
    rw [tokLoop_some hs] at h
    revert ih h
    generalize hx : tokLoop (loc.pushStr (rest.take n)) (rest.drop n) = x
    obtain ⟨r, l, s⟩ := x
    intro ih h
    cases r with
    | ok ts =>
      simp [consTok] at h
      obtain ⟨rfl, rfl, rfl⟩ := h
      obtain ⟨h1, used, h2, h3⟩ := ih rfl
      refine ⟨h1, rest.take n ++ used, ?_, ?_⟩
      · rw [List.append_assoc, ← h2, List.take_append_drop]
      · rw [h3]; simp
    | err e => simp [consTok] at h
    | panic p => simp [consTok] at h
    | diverge => simp [consTok] at h
  | herr loc rest e he => rw [tokLoop_err he] at h; simp at h

/-- Tokenizing in two steps. -/
theorem tokLoop_append {loc : Location} {a : Str} {tks : List Token} {loc' : Location} {a' : Str}
    (h : tokLoop loc a = (.ok tks, loc', a')) (b : Str) :
    tokLoop loc (a ++ b) = prependTok tks (tokLoop loc' (a' ++ b)) := by
  induction loc, a using tokLoop_induct generalizing tks loc' a' with
  | hnone loc rest hn =>
    rw [tokLoop_none hn] at h
    simp at h; obtain ⟨rfl, rfl, rfl⟩ := h
    rw [prependTok_nil]
  | hsome loc rest tk n hs ih =>
    have hr := readNext_sound _ _ _ _ _ hs
    rw [tokLoop_some hs] at h
    rw [tokLoop_some (readNext_some_extend _ _ b _ _ hs)]
    revert ih h
    generalize hx : tokLoop (loc.pushStr (rest.take n)) (rest.drop n) = x
    obtain ⟨r, l, s⟩ := x
    intro ih h
    cases r with
    | ok ts =>
      simp [consTok] at h
      obtain ⟨rfl, rfl, rfl⟩ := h
      have := ih rfl
      rw [prependTok_cons, ← this, List.take_append_of_le_length hr.le, List.drop_append_of_le_length hr.le]
    | err e => simp [consTok] at h
    | panic p => simp [consTok] at h
    | diverge => simp [consTok] at h
  | herr loc rest e he => rw [tokLoop_err he] at h; simp at h

theorem tokLoop_append_err {loc : Location} {a : Str} {e : Error} (h : (tokLoop loc a).1 = .err e) (b : Str) :
    (tokLoop loc (a ++ b)).1 = .err e := by
  induction loc, a using tokLoop_induct with
  | hnone loc rest hn => rw [tokLoop_none hn] at h; simp at h
  | hsome loc rest tk n hs ih =>
    have hr := readNext_sound _ _ _ _ _ hs
    rw [tokLoop_some hs] at h
    rw [tokLoop_some (readNext_some_extend _ _ b _ _ hs), List.take_append_of_le_length hr.le,
      List.drop_append_of_le_length hr.le]
    have h1 : (tokLoop (loc.pushStr (rest.take n)) (rest.drop n)).1 = .err e := by
      revert h
      rcases tokLoop (loc.pushStr (rest.take n)) (rest.drop n) with ⟨r, l, s⟩
      cases r <;> simp [consTok]
    have := ih h1
    revert this
    rcases tokLoop (loc.pushStr (rest.take n)) (rest.drop n ++ b) with ⟨r, l, s⟩
    intro h; simp at h; subst h; rfl
  | herr loc rest e' he =>
    rw [tokLoop_err he] at h
    simp at h; subst h
    rw [tokLoop_err (readNext_err_extend _ _ b _ he)]

/-! ### Flush -/

/-- What `flush` produces for a pending buffer. -/
def flushTok (loc : Location) (rest : Str) : Res (List Token) :=
  if rest = [] then .ok [.eof loc]
  else match readNext loc rest true with
    | .ok (some (tk, _)) => .ok [tk, .eof (loc.pushStr rest)]
    | .err e => .err e
    | _ => .panic .flushNotEmpty

theorem pending_flush {loc : Location} {rest : Str} (h : Pending loc rest) (hne : rest ≠ []) :
    (∃ tk, readNext loc rest true = .ok (some (tk, rest.length))) ∨
      ∃ e, readNext loc rest true = .err e := by
  rcases readNext_settled loc rest true with ⟨o, ho⟩ | ⟨e, he⟩
  · cases o with
    | none => exact absurd ho (readNext_flush_ne_none _ _ hne)
    | some x =>
      obtain ⟨tk, n⟩ := x
      have := readNext_pending _ _ _ _ h ho
      subst this
      exact .inl ⟨tk, ho⟩
  · exact .inr ⟨e, he⟩

theorem tokenizer_flush (t : Tokenizer) (h : Pending t.location t.buffer) :
    (∃ tks, flushTok t.location t.buffer = .ok tks ∧
      t.flush = (.ok tks, { t with location := t.location.pushStr t.buffer, buffer := [] })) ∨
    (∃ e, flushTok t.location t.buffer = .err e ∧ t.flush = (.err e, t)) := by
  by_cases hb : t.buffer = []
  · left
    refine ⟨[.eof t.location], by simp [flushTok, hb], ?_⟩
    obtain ⟨m, b, l⟩ := t
    simp at hb; subst hb
    simp [Tokenizer.flush, readNext]
  · rcases pending_flush h hb with ⟨tk, ht⟩ | ⟨e, he⟩
    · left
      refine ⟨[tk, .eof (t.location.pushStr t.buffer)], by simp [flushTok, hb, ht], ?_⟩
      simp [Tokenizer.flush, ht]
    · right
      exact ⟨e, by simp [flushTok, hb, he], by simp [Tokenizer.flush, he]⟩

/-! ### Correspondence with the lexical specification -/

theorem lexes_end {start : Location} {tks : List Token} (h : Lexes start [] tks) : tks = [] := by
  generalize hn : ([] : Str) = s at h
  cases h with
  | nil => rfl
  | cons hsp _ _ _ =>
    simp at hn
    obtain ⟨rfl, _⟩ := hn
    cases hsp <;> simp_all

theorem spelled_ne_nil {tk : Token} {s : Str} (h : Spelled tk s) : s ≠ [] := by
  cases h <;> simp_all
  all_goals (rename_i h; rcases h with rfl | rfl <;> simp)

/-- The whole run of the tokenizer over a text. -/
def scanAll (loc : Location) (text : Str) : Res (List Token) :=
  match tokLoop loc text with
  | (.ok tks, loc', rest') => (flushTok loc' rest').bind fun ts => .ok (tks ++ ts)
  | (r, _, _) => r

theorem scanAll_none {loc : Location} {rest : Str} (h : readNext loc rest false = .ok none) :
    scanAll loc rest = flushTok loc rest := by
  simp only [scanAll, tokLoop_none h]
  cases flushTok loc rest <;> simp [Res.bind]

theorem scanAll_some {loc : Location} {rest : Str} {tk : Token} {n : Nat}
    (h : readNext loc rest false = .ok (some (tk, n))) :
    scanAll loc rest = (scanAll (loc.pushStr (rest.take n)) (rest.drop n)).bind fun ts => .ok (tk :: ts) := by
  simp only [scanAll, tokLoop_some h]
  rcases tokLoop (loc.pushStr (rest.take n)) (rest.drop n) with ⟨r, l, s⟩
  cases r with
  | ok ts =>
    simp only [consTok]
    cases flushTok l s <;> simp [Res.bind]
  | err e => simp [consTok, Res.bind]
  | panic p => simp [consTok, Res.bind]
  | diverge => simp [consTok, Res.bind]

theorem scanAll_err {loc : Location} {rest : Str} {e : Error} (h : readNext loc rest false = .err e) :
    scanAll loc rest = .err e := by
  simp only [scanAll, tokLoop_err h]

theorem scanAll_sound (loc : Location) (text : Str) (tks : List Token) (h : scanAll loc text = .ok tks) :
    ∃ ts, Lexes loc text ts ∧ tks = ts ++ [.eof (loc.pushStr text)] := by
  induction loc, text using tokLoop_induct generalizing tks with
  | hnone loc rest hn =>
    rw [scanAll_none hn] at h
    by_cases hr : rest = []
    · subst hr
      simp [flushTok] at h; subst h
      exact ⟨[], .nil _, by simp⟩
    · rcases pending_flush hn hr with ⟨tk, ht⟩ | ⟨e, he⟩
      · simp [flushTok, hr, ht] at h; subst h
        have hs := readNext_sound _ _ _ _ _ ht
        refine ⟨[tk], ?_, by simp⟩
        have := Lexes.cons (rest := []) (tks := []) (by simpa using hs.spelled) hs.position
          (by simp only [List.head?_nil]; cases tk <;> simp [Ends]) (.nil _)
        simpa using this
      · simp [flushTok, hr, he] at h
  | hsome loc rest tk n hs ih =>
    rw [scanAll_some hs] at h
    have hr := readNext_sound _ _ _ _ _ hs
    cases hx : scanAll (loc.pushStr (rest.take n)) (rest.drop n) with
    | ok ts =>
      rw [hx] at h; simp [Res.bind] at h; subst h
      obtain ⟨us, h1, rfl⟩ := ih _ hx
      refine ⟨tk :: us, ?_, ?_⟩
      · rw [Location.pushStr_eq_lineColumn] at h1
        have := Lexes.cons hr.spelled hr.position (hr.ends rfl) h1
        rwa [List.take_append_drop] at this
      · rw [← Location.pushStr_append, List.take_append_drop]; simp
    | err e => rw [hx] at h; simp [Res.bind] at h
    | panic p => rw [hx] at h; simp [Res.bind] at h
    | diverge => rw [hx] at h; simp [Res.bind] at h
  | herr loc rest e he => rw [scanAll_err he] at h; simp at h

theorem scanAll_complete {loc : Location} {text : Str} {ts : List Token} (h : Lexes loc text ts) :
    scanAll loc text = .ok (ts ++ [.eof (loc.pushStr text)]) := by
  induction h with
  | nil start => rw [scanAll_none (by simp [readNext])]; simp [flushTok]
  | cons hsp hpos hend hrest ih =>
    rename_i start tk s rest tks
    have hc := readNext_complete hsp _ hend
    rw [hpos] at hc
    rcases hc with hc | ⟨rfl, h1, h2⟩
    · rw [scanAll_some hc]
      simp only [List.take_left, List.drop_left]
      rw [Location.pushStr_eq_lineColumn, ih]
      simp [Res.bind, ← Location.pushStr_eq_lineColumn]
    · have hn := lexes_end hrest
      subst hn
      rw [List.append_nil, scanAll_none h1]
      simp [flushTok, spelled_ne_nil hsp, h2]

theorem lexes_unique {loc : Location} {text : Str} {ts us : List Token} (h : Lexes loc text ts)
    (h' : Lexes loc text us) : ts = us := by
  have := (scanAll_complete h).symm.trans (scanAll_complete h')
  simpa using this

theorem scanAll_settled (loc : Location) (text : Str) : Settled (scanAll loc text) := by
  induction loc, text using tokLoop_induct with
  | hnone loc rest hn =>
    rw [scanAll_none hn]
    by_cases hr : rest = []
    · simp [flushTok, hr]; exact settled_ok _
    · rcases pending_flush hn hr with ⟨tk, ht⟩ | ⟨e, he⟩
      · simp [flushTok, hr, ht]; exact settled_ok _
      · simp [flushTok, hr, he]; exact settled_err _
  | hsome loc rest tk n hs ih =>
    rw [scanAll_some hs]
    rcases ih with ⟨a, h⟩ | ⟨e, h⟩
    · rw [h]; exact settled_ok _
    · rw [h]; exact settled_err _
  | herr loc rest e he => rw [scanAll_err he]; exact settled_err _

theorem lexes_no_eof {loc : Location} {text : Str} {ts : List Token} (h : Lexes loc text ts) :
    ∀ t ∈ ts, ∀ l, t ≠ .eof l := by
  induction h with
  | nil => simp
  | cons hsp _ _ _ ih =>
    intro t ht l
    rcases List.mem_cons.mp ht with rfl | ht
    · rintro rfl; cases hsp
    · exact ih t ht l

end Ebnf
