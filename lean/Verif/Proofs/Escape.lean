import Verif.Model.Escape
import Verif.Model.Graph
import Verif.Proofs.Display

set_option autoImplicit false

/-! # Reading back numbers and `{:?}` texts -/

namespace Ebnf

open Ebnf.Spec

/-- A list is cut in one way only at the first element that is `c`. -/
theorem cut_first {c : Char} : ∀ {xs xs' ys ys' : Str}, c ∉ xs → c ∉ xs' →
    xs ++ c :: ys = xs' ++ c :: ys' → xs = xs' ∧ ys = ys'
  | [], [], _, _, _, _, h => ⟨rfl, by simpa using h⟩
  | [], x :: xs', _, _, _, h2, h => by
    injection h with h3 _
    exact absurd (by rw [h3]; simp) h2
  | x :: xs, [], _, _, h1, _, h => by
    injection h with h3 _
    exact absurd (by rw [← h3]; simp) h1
  | x :: xs, x' :: xs', _, _, h1, h2, h => by
    injection h with h3 h4
    obtain ⟨h5, h6⟩ := cut_first (fun m => h1 (by simp [m])) (fun m => h2 (by simp [m])) h4
    exact ⟨by rw [h3, h5], h6⟩

/-- A list is cut in one way only at the last element that is `c`. -/
theorem cut_last {c : Char} {xs xs' ys ys' : Str} (h1 : c ∉ ys) (h2 : c ∉ ys')
    (h : xs ++ c :: ys = xs' ++ c :: ys') : xs = xs' ∧ ys = ys' := by
  have := congrArg List.reverse h
  simp only [List.reverse_append, List.reverse_cons, List.append_assoc, List.singleton_append] at this
  obtain ⟨h3, h4⟩ := cut_first (by simpa using h1) (by simpa using h2) this
  exact ⟨by simpa using h4, by simpa using h3⟩

theorem not_digit {c : Char} (h : ¬ IsDigit c) (n : Nat) : c ∉ Nat.toDigits 10 n :=
  fun hc => h ((digits_ok n).1 c hc)

theorem digits_inj {a b : Nat} (h : Nat.toDigits 10 a = Nat.toDigits 10 b) : a = b := by
  rw [← (digits_ok a).2.2, h, (digits_ok b).2.2]

/-! ## Hexadecimal digits -/

theorem digitChar_inj : ∀ {a b : Nat}, a < 16 → b < 16 → Nat.digitChar a = Nat.digitChar b → a = b := by
  have key : ∀ a : Fin 16, ∀ b : Fin 16, Nat.digitChar a.val = Nat.digitChar b.val → a = b := by decide +kernel
  intro a b ha hb h
  exact congrArg Fin.val (key ⟨a, ha⟩ ⟨b, hb⟩ h)

theorem hex_inj (a : Nat) : ∀ {b : Nat}, Nat.toDigits 16 a = Nat.toDigits 16 b → a = b := by
  induction a using Nat.strongRecOn with
  | ind a ih =>
    intro b h
    rw [Nat.toDigits_eq_if (by omega), Nat.toDigits_eq_if (n := b) (by omega)] at h
    by_cases ha : a < 16
    · rw [if_pos ha] at h
      by_cases hb : b < 16
      · rw [if_pos hb] at h
        exact digitChar_inj ha hb (by simpa using h)
      · rw [if_neg hb] at h
        have := congrArg List.length h
        simp at this
    · rw [if_neg ha] at h
      by_cases hb : b < 16
      · rw [if_pos hb] at h
        have := congrArg List.length h
        simp at this
      · rw [if_neg hb] at h
        obtain ⟨h1, h2⟩ := List.append_inj' h rfl
        have h3 := ih (a / 16) (by omega) h1
        have h4 := digitChar_inj (Nat.mod_lt _ (by omega)) (Nat.mod_lt _ (by omega)) (by simpa using h2)
        omega

theorem hex_digits (n : Nat) : ∀ c ∈ Nat.toDigits 16 n, ∃ d, d < 16 ∧ c = Nat.digitChar d := by
  induction n using Nat.strongRecOn with
  | ind n ih =>
    intro c hc
    rw [Nat.toDigits_eq_if (by omega)] at hc
    by_cases h : n < 16
    · rw [if_pos h] at hc
      exact ⟨n, h, by simpa using hc⟩
    · rw [if_neg h] at hc
      rcases List.mem_append.mp hc with hc | hc
      · exact ih (n / 16) (by omega) c hc
      · exact ⟨n % 16, Nat.mod_lt _ (by omega), by simpa using hc⟩

theorem not_hex {c : Char} (h : ∀ d : Fin 16, c ≠ Nat.digitChar d.val) (n : Nat) : c ∉ Nat.toDigits 16 n := by
  intro hc
  obtain ⟨d, hd, he⟩ := hex_digits n c hc
  exact h ⟨d, hd⟩ he

/-! ## Escaped characters -/

variable {hidden : Char → Bool} {quote : Char}

/-- The character after the backslash in a short escape. -/
def escapeName (quote c : Char) : Option Char :=
  if c = '\x00' then some '0'
  else if c = '\t' then some 't'
  else if c = '\r' then some 'r'
  else if c = '\n' then some 'n'
  else if c = '\\' then some '\\'
  else if c = quote then some quote
  else none

/-- The character a short escape stands for. -/
def unescapeName (d : Char) : Char :=
  if d = '0' then '\x00' else if d = 't' then '\t' else if d = 'r' then '\r' else if d = 'n' then '\n' else d

theorem unescapeName_eq (hq : quote = '\'' ∨ quote = '"') {c d : Char} (h : escapeName quote c = some d) : unescapeName d = c := by
  unfold escapeName at h
  repeat' split at h
  all_goals first | cases h | skip
  all_goals rename_i e; rw [e]
  all_goals rcases hq with rfl | rfl <;> decide

theorem escapeName_inj (hq : quote = '\'' ∨ quote = '"') {c c' d : Char} (h : escapeName quote c = some d) (h' : escapeName quote c' = some d) :
    c = c' := (unescapeName_eq hq h).symm.trans (unescapeName_eq hq h')

theorem escapeName_not_u (hq : quote = '\'' ∨ quote = '"') (c : Char) : escapeName quote c ≠ some 'u' := by
  unfold escapeName
  repeat' split
  all_goals first | (simp; done) | (rcases hq with rfl | rfl <;> simp)

/-- The three shapes of an escaped character. -/
theorem escape_cases (c : Char) :
    (∃ d, escapeChar hidden quote c = ['\\', d] ∧ escapeName quote c = some d) ∨
    (escapeChar hidden quote c = '\\' :: 'u' :: '{' :: (Nat.toDigits 16 c.toNat ++ ['}']) ∧ c ≠ '\\' ∧ c ≠ quote) ∨
    (escapeChar hidden quote c = [c] ∧ c ≠ '\\' ∧ c ≠ quote) := by
  unfold escapeChar escapeName
  repeat' split
  all_goals simp_all

/-- An escaped character can be read back, and where it ends can be told. -/
theorem escape_inj (hq : quote = '\'' ∨ quote = '"') {c c' : Char} {x y : Str}
    (h : escapeChar hidden quote c ++ x = escapeChar hidden quote c' ++ y) : c = c' ∧ x = y := by
  rcases escape_cases (hidden := hidden) (quote := quote) c with ⟨d, e, n⟩ | ⟨e, n, q⟩ | ⟨e, n, q⟩ <;>
    rcases escape_cases (hidden := hidden) (quote := quote) c' with ⟨d', e', n'⟩ | ⟨e', n', q'⟩ | ⟨e', n', q'⟩ <;>
    rw [e, e'] at h
  · simp only [List.cons_append, List.nil_append, List.cons.injEq, true_and] at h
    exact ⟨escapeName_inj hq n (h.1 ▸ n'), h.2⟩
  · simp only [List.cons_append, List.nil_append, List.cons.injEq, true_and] at h
    exact absurd (h.1 ▸ n) (escapeName_not_u hq c)
  · simp only [List.cons_append, List.nil_append, List.cons.injEq] at h
    exact absurd h.1.symm n'
  · simp only [List.cons_append, List.nil_append, List.cons.injEq, true_and] at h
    exact absurd (h.1 ▸ n') (escapeName_not_u hq c')
  · simp only [List.cons_append, List.cons.injEq, true_and, List.append_assoc, List.nil_append] at h
    obtain ⟨h1, h2⟩ := cut_first (not_hex (by decide) _) (not_hex (by decide) _) h
    exact ⟨Char.toNat_inj.mp (hex_inj _ h1), h2⟩
  · simp only [List.cons_append, List.nil_append, List.cons.injEq] at h
    exact absurd h.1.symm n'
  · simp only [List.cons_append, List.nil_append, List.cons.injEq] at h
    exact absurd h.1 n
  · simp only [List.cons_append, List.nil_append, List.cons.injEq] at h
    exact absurd h.1 n
  · simp only [List.cons_append, List.nil_append, List.cons.injEq] at h
    exact h

/-- No escaped character begins with the quotation mark. -/
theorem escape_head (hq : quote = '\'' ∨ quote = '"') (c : Char) : ∃ d ds, escapeChar hidden quote c = d :: ds ∧ d ≠ quote := by
  rcases escape_cases (hidden := hidden) (quote := quote) c with ⟨d, e, n⟩ | ⟨e, n, q⟩ | ⟨e, n, q⟩
  · exact ⟨_, _, e, by rcases hq with rfl | rfl <;> decide⟩
  · exact ⟨_, _, e, by rcases hq with rfl | rfl <;> decide⟩
  · exact ⟨_, _, e, q⟩

/-- A character written with `{:?}` can be read back, whatever follows. -/
theorem debugChar_inj {c c' : Char} {x y : Str} (h : debugChar hidden c ++ x = debugChar hidden c' ++ y) : c = c' ∧ x = y := by
  simp only [debugChar, List.cons_append, List.append_assoc, List.nil_append, List.cons.injEq, true_and] at h
  obtain ⟨h1, h2⟩ := escape_inj (.inl rfl) h
  exact ⟨h1, by simpa using h2⟩

theorem escaped_inj : ∀ {s s' x y : Str}, s.flatMap (escapeChar hidden '"') ++ '"' :: x = s'.flatMap (escapeChar hidden '"') ++ '"' :: y →
    s = s' ∧ x = y
  | [], [], _, _, h => ⟨rfl, by simpa using h⟩
  | [], c :: s', _, _, h => by
    obtain ⟨d, ds, e, n⟩ := escape_head (hidden := hidden) (.inr rfl) c
    simp only [List.flatMap_cons, List.flatMap_nil, List.nil_append, e, List.cons_append, List.cons.injEq] at h
    exact absurd h.1.symm n
  | c :: s, [], _, _, h => by
    obtain ⟨d, ds, e, n⟩ := escape_head (hidden := hidden) (.inr rfl) c
    simp only [List.flatMap_cons, List.flatMap_nil, List.nil_append, e, List.cons_append, List.cons.injEq] at h
    exact absurd h.1 n
  | c :: s, c' :: s', _, _, h => by
    simp only [List.flatMap_cons, List.append_assoc] at h
    obtain ⟨h1, h2⟩ := escape_inj (.inr rfl) h
    obtain ⟨h3, h4⟩ := escaped_inj h2
    exact ⟨by rw [h1, h3], h4⟩

/-- A string written with `{:?}` can be read back, whatever follows. -/
theorem debugText_inj {s s' x y : Str} (h : debugText hidden s ++ x = debugText hidden s' ++ y) : s = s' ∧ x = y := by
  simp only [debugText, List.cons_append, List.append_assoc, List.nil_append, List.cons.injEq, true_and] at h
  exact escaped_inj h

/-- Every quotation mark stands after a backslash. -/
def Tame : Char → Str → Prop
  | _, [] => True
  | p, c :: cs => (c = '"' → p = '\\') ∧ Tame c cs

theorem tame_plain {rest : Str} (hr : ∀ p, Tame p rest) : ∀ {s : Str} {p : Char}, '"' ∉ s → Tame p (s ++ rest)
  | [], p, _ => hr p
  | c :: cs, _, h => ⟨fun e => absurd (by simp [e]) h, tame_plain hr fun m => h (by simp [m])⟩

theorem tame_escaped : ∀ (s : Str) (p : Char), Tame p (s.flatMap (escapeChar hidden '"'))
  | [], _ => trivial
  | c :: s, p => by
    rw [List.flatMap_cons]
    rcases escape_cases (hidden := hidden) (quote := '"') c with ⟨d, e, n⟩ | ⟨e, n, q⟩ | ⟨e, n, q⟩ <;> rw [e]
    · exact ⟨fun h => absurd h (by decide), fun _ => rfl, tame_escaped s d⟩
    · refine tame_plain (tame_escaped s) ?_
      simp [not_hex (c := '"') (by decide)]
    · exact tame_plain (tame_escaped s) (by simpa using fun h => q h.symm)

theorem tame_pair : ∀ {a b : Str} {p q : Char}, Tame q (a ++ p :: '"' :: b) → p = '\\'
  | [], _, _, _, h => h.2.1 rfl
  | _ :: _, _, _, _, h => tame_pair h.2

/-- In the escaped text a quotation mark stands only after a backslash. -/
theorem escaped_quote {s a b : Str} {p : Char} (h : s.flatMap (escapeChar hidden '"') = a ++ p :: '"' :: b) : p = '\\' :=
  tame_pair (q := ' ') (h ▸ tame_escaped s ' ')

/-- For the characters a terminal string can contain, `{:?}` escapes the quotation mark and the backslash only: `debugStr` is this text. -/
theorem debugText_printable {s : Str} (hp : ∀ c ∈ s, ' ' ≤ c ∧ c < '\x7f' ∧ hidden c = false) : debugText hidden s = debugStr s := by
  unfold debugText debugStr
  congr 2
  induction s with
  | nil => rfl
  | cons c s ih =>
    rw [List.flatMap_cons, List.flatMap_cons, ih fun d hd => hp d (by simp [hd])]
    congr 1
    obtain ⟨h1, h2, h3⟩ := hp c (by simp)
    unfold escapeChar
    have ne : ∀ d : Char, ¬ ' ' ≤ d → c ≠ d := fun d hd e => hd (e ▸ h1)
    rw [if_neg (ne _ (by decide)), if_neg (ne _ (by decide)), if_neg (ne _ (by decide)), if_neg (ne _ (by decide)), h3]
    by_cases hb : c = '\\'
    · subst hb; rfl
    · by_cases hq : c = '"'
      · subst hq; rfl
      · simp [hb, hq]

end Ebnf
