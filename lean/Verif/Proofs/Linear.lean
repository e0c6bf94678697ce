import Verif.Spec.Linear
import Verif.Spec.Cost
import Verif.Proofs.Predictive
import Verif.Proofs.Recursion
import Verif.Proofs.StackBound

set_option autoImplicit false
set_option linter.unusedSectionVars false

/-! # Grammars that need one character of look-ahead are parsed in linear time

A run is idle if the text does not go on with a character with which the part begins: then it consumes nothing, and costs no more than a
constant.  Otherwise what it costs is paid by characters: by those it consumes; or, if it comes to nothing, by those it has looked at.  In
the latter case nothing that follows can go on from there (`Stuck`): all that is still carried out is idle. -/

namespace Ebnf

open Spec

/-! ## The weight of a part -/

mutual
/-- A bound of the cost of a primary, references and consumed characters aside. -/
def loadPrimary : Primary → Nat
  | .optional _ l => loadAlternatives l + 2
  | .repeated _ l => 2 * (loadAlternatives l + 1) + 1
  | .grouped _ l => loadAlternatives l + 1
  | _ => 1
/-- The same for a factor. -/
def loadFactor : Factor → Nat
  | .mk k p => if k = 1 then loadPrimary p else k * loadPrimary p + 1
/-- The same for a term. -/
def loadTerm : Term → Nat
  | .plain f => loadFactor f
  | .except f x => loadFactor f + loadFactor x + 1
/-- The same for a definition. -/
def loadSingle : SingleDefinition → Nat
  | .nil => 0
  | .cons t d => loadTerm t + loadSingle d
/-- The same for alternatives. -/
def loadAlternatives : DefinitionList → Nat
  | .nil => 0
  | .cons d l => loadSingle d + loadAlternatives l
end

/-- The same for a task. -/
def load : Task → Nat
  | .primary p => loadPrimary p
  | .factor f => loadFactor f
  | .term t => loadTerm t
  | .sequence d => loadSingle d
  | .list l => loadAlternatives l + 1
  | .alternatives l => loadAlternatives l
  | .rounds body _ max guarded i => if guarded then 2 * load body else (max.getD 0 - i) * load body

/-! ## What a part begins with, and where it is stuck -/

/-- The characters with which what is left of the task begins. -/
def Heads (G : Language) : Task → Char → Prop
  | .rounds body _ max _ i, c => (∀ m, max = some m → i < m) ∧ First regardless G body c
  | .alternatives l, c => First regardless G (.list l) c
  | task, c => First regardless G task c

/-- Nothing that follows can begin with the character. -/
def Stuck (G : Language) : Task → Char → Prop
  | .rounds body min max _ _, c => ¬ Next regardless G body c ∨ ((∀ m, max = some m → min < m) ∧ First regardless G body c)
  | .alternatives l, c => ∀ L pre, L.toList = pre ++ l.toList → Occurs G (.list L) → ¬ Next regardless G (.list L) c
  | task, c => ¬ Next regardless G task c

/-- Parts of the grammar, references to rules, and the steps in between. -/
def Held (G : Language) : Task → Prop
  | .primary (.metaIdentifier _ _) => True
  | .alternatives l => ∃ L pre, L.toList = pre ++ l.toList ∧ Occurs G (.list L)
  | .rounds body _ max guarded _ => ((∃ l, body = .list l ∧ Occurs G body) ∨ ∃ p, body = .primary p ∧ Occurs G body) ∧
      (guarded = true → ¬ Produces regardless G body []) ∧
      ((∀ m, max = some m → 2 ≤ m) → ∀ c, First regardless G body c → Next regardless G body c)
  | task => Occurs G task

theorem held_primary {G : Language} {p : Primary} (h : Occurs G (.primary p)) : Held G (.primary p) := by
  cases p <;> first | exact h | trivial

theorem held_body {G : Language} {body : Task} (h : (∃ l, body = .list l ∧ Occurs G body) ∨ ∃ p, body = .primary p ∧ Occurs G body) :
    Held G body := by
  rcases h with ⟨l, rfl, h⟩ | ⟨p, rfl, h⟩
  · exact h
  · exact held_primary h

theorem heads_body {G : Language} {body : Task} (h : (∃ l, body = .list l ∧ Occurs G body) ∨ ∃ p, body = .primary p ∧ Occurs G body)
    {c : Char} : Heads G body c ↔ First regardless G body c := by
  rcases h with ⟨l, rfl, h⟩ | ⟨p, rfl, h⟩ <;> exact Iff.rfl

theorem stuck_body {G : Language} {body : Task} (h : (∃ l, body = .list l ∧ Occurs G body) ∨ ∃ p, body = .primary p ∧ Occurs G body)
    {c : Char} : Stuck G body c ↔ ¬ Next regardless G body c := by
  rcases h with ⟨l, rfl, h⟩ | ⟨p, rfl, h⟩ <;> exact Iff.rfl

/-- What may match nothing derives the empty text. -/
theorem produces_empty {G : Language} (ho : Everywhere (ordinary G) G) {task : Task} (h : MayBeEmpty G task) :
    (Occurs G task ∨ ∃ loc n, task = .primary (.metaIdentifier loc n)) → Produces regardless G task [] := by
  have simple : ∀ {task : Task}, (Occurs G task ∨ ∃ loc n, task = .primary (.metaIdentifier loc n)) →
      (∀ loc n, task ≠ .primary (.metaIdentifier loc n)) → Occurs G task := by
    rintro task (h | ⟨loc, n, h⟩) hn
    · exact h
    · exact absurd h (hn _ _)
  induction h with
  | optional => intro _; exact .leftOut
  | repeated => intro _; exact .noMore
  | grouped _ ih => intro h; exact .grouped (ih (.inl (.grouped (simple h (by simp)))))
  | empty => intro _; exact .empty
  | terminal => intro _; exact .terminal
  | reference h1 h2 _ ih => intro _; exact .reference h1 h2 (ih (.inl (.rule h1)))
  | @special loc s here rest evs h => intro _; exact .special (rest := rest) (n := 0) h
  | @forward loc s here rest name hf =>
    intro h
    rcases occurs_every ho (simple h (by simp)) _ _ rfl loc here rest with ⟨_, _, h'⟩ | h' <;> rw [hf] at h' <;> cases h'
  | never => intro _; exact .never
  | @factor k p _ ih =>
    intro h
    have h1 := ih (.inl (.primary (simple h (by simp))))
    have := reads_counted (p := p) (List.replicate k []) (fun x hx => by rw [List.eq_of_mem_replicate hx]; exact h1)
    rw [List.length_replicate] at this
    have hz : ∀ k : Nat, (List.replicate k ([] : Str)).flatten = [] := by
      intro k
      simp
    rw [hz] at this
    exact this
  | plain _ ih => intro h; exact .plain (ih (.inl (.plain (simple h (by simp)))))
  | except _ ih => intro h; exact .except (ih (.inl (.base (simple h (by simp))))) id
  | done => intro _; exact .done
  | next _ _ ih1 ih2 =>
    intro h
    have h := simple h (by simp)
    exact .next (w := []) (w' := []) (ih1 (.inl (.first h))) (ih2 (.inl (.later h)))
  | @group t d _ hg ih =>
    intro h
    have h := simple h (by simp)
    have hd : d = .nil := (occurs_every ho h).1 hg
    subst hd
    exact .next (w := []) (w' := []) (ih (.inl (.first h))) .done
  | choice hd _ ih => intro h; exact .choice hd (ih (.inl (.definition (simple h (by simp)) hd)))

/-- The task matches `n` characters. -/
def Gets (G : Language) (task : Task) (here : Location) (rest : Str) (n : Nat) : Prop := ∃ evs, Ev asBuilt G task here rest (.ok evs n)

/-- The cost is low, or paid by characters. -/
def Paid (G : Language) (A X Z : Nat) (task : Task) (here : Location) (rest : Str) (k : Nat) : Prop :=
  (k ≤ load task * X ∧ ∀ n, Gets G task here rest n → n = 0) ∨
  ∃ c t m, rest = c :: t ∧ Heads G task c ∧ m ≤ t.length ∧ k ≤ A * m + load task * Z ∧
    ∀ n, Gets G task here rest n → n = m + 1 ∨ (n ≤ m ∧ ∀ c t, rest.drop n = c :: t → Stuck G task c)

section
variable {G : Language} {A X Z : Nat} {here : Location} {rest : Str} {k : Nat}

/-- A task that consists of another one. -/
theorem paid_step {task task' : Task} {e : Nat} (h : Paid G A X Z task' here rest k) (hX : 1 ≤ X) (hZ : 1 ≤ Z)
    (hL : load task' + e ≤ load task) (hF : ∀ c, Heads G task' c → Heads G task c) (hS : ∀ c, Stuck G task' c → Stuck G task c)
    (hG : ∀ n, Gets G task here rest n → Gets G task' here rest n) : Paid G A X Z task here rest (k + e) := by
  have le : ∀ Y, 1 ≤ Y → load task' * Y + e ≤ load task * Y := by
    intro Y hY
    have h1 := Nat.mul_le_mul_right Y hL
    rw [Nat.add_mul] at h1
    have h2 := Nat.mul_le_mul_left e hY
    omega
  rcases h with ⟨h2, h3⟩ | ⟨c, t, m, h1, h2, h3, h4, h5⟩
  · refine .inl ⟨?_, fun n hn => h3 n (hG n hn)⟩
    have := le X hX; omega
  · refine .inr ⟨c, t, m, h1, hF c h2, h3, ?_, fun n hn => ?_⟩
    · have := le Z hZ; omega
    · rcases h5 n (hG n hn) with h | ⟨h, h'⟩
      · exact .inl h
      · exact .inr ⟨h, fun c t hr => hS c (h' c t hr)⟩

/-- A leaf takes one step, and consumes what it derives. -/
theorem paid_leaf (U : OneMeaning G) (hb : Bounded G) {p : Primary} (hX : 1 ≤ X) (hZ : 1 ≤ Z) (hl : load (.primary p) = 1)
    (hp : ∀ n, Gets G (.primary p) here rest n → Produces regardless G (.primary p) (rest.take n)) : Paid G A X Z (.primary p) here rest 1 := by
  by_cases h : ∃ n, Gets G (.primary p) here rest (n + 1)
  · obtain ⟨n, h⟩ := h
    have h1 := hp _ h
    obtain ⟨evs, h⟩ := h
    have hlen := ev_bounded_ok hb h
    cases rest with
    | nil => simp at hlen
    | cons c t =>
      refine .inr ⟨c, t, n, rfl, ⟨_, h1⟩, by simpa using hlen, ?_, ?_⟩
      · rw [hl]; omega
      · rintro n' ⟨evs', h'⟩
        have := ev_unique U h h'
        simp only [Outcome.ok.injEq] at this
        exact .inl this.2.symm
  · refine .inl ⟨by rw [hl]; omega, ?_⟩
    rintro n hn
    cases n with
    | zero => rfl
    | succ n => exact absurd ⟨n, hn⟩ h

/-- One task after another. -/
theorem paid_then {first second task : Task} {here' : Location} {n a b X' Z' : Nat} (hXZ : X ≤ Z) (hlen : n ≤ rest.length)
    (hn : Gets G first here rest n)
    (h1 : Paid G A X Z first here rest a)
    (hG : ∀ N, Gets G task here rest N → ∃ n', N = n + n' ∧ Gets G second here' (rest.drop n) n')
    (same : n = 0 → Paid G A X Z second here' (rest.drop n) b) (fresh : Paid G A X' Z' second here' (rest.drop n) b)
    (hA : load second * Z' ≤ A) (hL0 : n = 0 → load first + load second ≤ load task) (hL : load first * Z + load second * X' ≤ load task * Z)
    (heads1 : ∀ c, Heads G first c → Heads G task c) (heads2 : n = 0 → ∀ c, Heads G second c → Heads G task c)
    (stuck1 : ∀ c, Stuck G first c → ¬ Heads G second c) (stuck2 : ∀ c, Stuck G second c → Stuck G task c)
    (stuck3 : ∀ c, Stuck G first c → Gets G second here' (rest.drop n) 0 → Stuck G task c) : Paid G A X Z task here rest (a + b) := by
  rcases h1 with ⟨h2, h3⟩ | ⟨c, t, m, rfl, h2, h3, h4, h5⟩
  · have hn0 := h3 n hn
    subst hn0
    have hL0 := hL0 rfl
    rcases same rfl with ⟨h4, h5⟩ | ⟨c, t, m, h4, h5, h6, h7, h8⟩
    · refine .inl ⟨?_, fun N hN => ?_⟩
      · have := Nat.mul_le_mul_right X hL0
        rw [Nat.add_mul] at this
        omega
      · obtain ⟨n', rfl, hn'⟩ := hG N hN
        rw [h5 n' hn']
    · refine .inr ⟨c, t, m, h4, heads2 rfl c h5, h6, ?_, fun N hN => ?_⟩
      · have := Nat.mul_le_mul_right Z hL0
        have h9 := Nat.mul_le_mul_left (load first) hXZ
        rw [Nat.add_mul] at this
        omega
      · obtain ⟨n', rfl, hn'⟩ := hG N hN
        rcases h8 n' hn' with rfl | ⟨h9, h10⟩
        · exact .inl (Nat.zero_add _)
        · refine .inr ⟨by omega, fun c t hr => stuck2 c (h10 c t ?_)⟩
          rw [Nat.zero_add] at hr
          exact hr
  · have hmono : load first * Z ≤ load task * Z := by omega
    rcases h5 n hn with rfl | ⟨h6, h7⟩
    · rcases fresh with ⟨h6, h7⟩ | ⟨c', t', m', h6, h7, h8, h9, h10⟩
      · refine .inr ⟨c, t, m, rfl, heads1 c h2, h3, by omega, fun N hN => ?_⟩
        obtain ⟨n', rfl, hn'⟩ := hG N hN
        rw [h7 n' hn']
        exact .inl rfl
      · have hl := congrArg List.length h6
        rw [List.length_drop, List.length_cons, List.length_cons] at hl
        refine .inr ⟨c, t, m + 1 + m', rfl, heads1 c h2, by omega, ?_, fun N hN => ?_⟩
        · rw [Nat.mul_add, Nat.mul_add, Nat.mul_one]
          omega
        · obtain ⟨n', rfl, hn'⟩ := hG N hN
          rcases h10 n' hn' with rfl | ⟨h11, h12⟩
          · exact .inl (by omega)
          · refine .inr ⟨by omega, fun c t hr => stuck2 c (h12 c t ?_)⟩
            rw [List.drop_drop]
            exact hr
    · rcases fresh with ⟨h8, h9⟩ | ⟨c', t', m', h8, h9, _⟩
      · refine .inr ⟨c, t, m, rfl, heads1 c h2, h3, by omega, fun N hN => ?_⟩
        obtain ⟨n', rfl, hn'⟩ := hG N hN
        have := h9 n' hn'
        subst this
        exact .inr ⟨by omega, fun c t hr => stuck3 c (h7 c t hr) hn'⟩
      · exact absurd h9 (stuck1 c' (h7 c' t' h8))

end

/-! ## The cost of a parse -/

theorem gets_unique {G : Language} (U : OneMeaning G) {task : Task} {here : Location} {rest : Str} {n : Nat} {o : Outcome}
    (h : Ev asBuilt G task here rest o) (h' : Gets G task here rest n) : ∃ evs, o = .ok evs n := by
  obtain ⟨evs, h'⟩ := h'
  exact ⟨evs, ev_unique U h h'⟩

/-- Exceptions cost no more than their weight. -/
theorem leaf_cost {G : Language} (ho : Everywhere (ordinary G) G) {task : Task} {here : Location} {rest : Str} {b : Nat}
    (h : Costs G task here rest b) : (∀ p, task = .primary p → IsLeaf p → Occurs G task → b ≤ 1) ∧
      (∀ p min max i, task = .rounds (.primary p) min (some max) false i → IsLeaf p → Occurs G (.primary p) → b ≤ max - i) := by
  have plain : ∀ {loc s}, Occurs G (.primary (.specialSequence loc s)) → ∀ here rest,
      (∃ evs n, G.special loc s loc here rest = .accept evs n) ∨ G.special loc s loc here rest = .unmatched :=
    fun h here rest => occurs_every ho h _ _ rfl _ here rest
  induction h with
  | forward hf =>
    refine ⟨?_, by simp⟩
    rintro _ ⟨⟩ _ h
    rcases plain h _ _ with ⟨_, _, h'⟩ | h' <;> rw [hf] at h' <;> cases h'
  | forwardUndefined hf =>
    refine ⟨?_, by simp⟩
    rintro _ ⟨⟩ _ h
    omega
  | enough => exact ⟨by simp, fun _ _ _ _ _ _ _ => Nat.zero_le _⟩
  | round hi _ _ _ _ ih1 ih2 =>
    refine ⟨by simp, ?_⟩
    rintro p min max i ⟨⟩ hl h
    have h1 := ih1.1 _ rfl hl h
    have h2 := ih2.2 _ _ _ _ rfl hl h
    omega
  | lastRound hi _ _ _ ih =>
    refine ⟨by simp, ?_⟩
    rintro p min max i ⟨⟩ hl h
    have h1 := ih.1 _ rfl hl h
    omega
  | grouped => exact ⟨by rintro _ ⟨⟩ h; exact h.elim, by simp⟩
  | optional => exact ⟨by rintro _ ⟨⟩ h; exact h.elim, by simp⟩
  | repeated => exact ⟨by rintro _ ⟨⟩ h; exact h.elim, by simp⟩
  | reference => exact ⟨by rintro _ ⟨⟩ h; exact h.elim, by simp⟩
  | undefined => exact ⟨by rintro _ ⟨⟩ h; exact h.elim, by simp⟩
  | _ => exact ⟨by simp, by simp⟩

theorem exception_cost {G : Language} (ho : Everywhere (ordinary G) G) {k : Nat} {p : Primary} {here : Location} {rest : Str} {b : Nat}
    (h : Costs G (.factor (.mk k p)) here rest b) (hp : IsLeaf p) (hO : Occurs G (.factor (.mk k p))) : b ≤ loadFactor (.mk k p) := by
  have hw : loadPrimary p = 1 := by cases p <;> first | rfl | exact hp.elim
  cases h with
  | once h =>
    have := (leaf_cost ho h).1 _ rfl hp (.primary hO)
    simp only [loadFactor, if_pos, hw]
    omega
  | counted hk h =>
    have hc : (decide (k = 4294967295)) = false := by
      have : k < 4294967295 := (occurs_every ho hO).1
      simp only [decide_eq_false_iff_not]
      omega
    rw [hc] at h
    have := (leaf_cost ho h).2 _ _ _ _ rfl hp (.primary hO)
    simp only [loadFactor, if_neg hk, hw]
    omega

/-- The low price, with `u` rules that can still be started. -/
def low (M u : Nat) : Nat := (M + 1) ^ u
/-- The high price. -/
def high (M R u : Nat) : Nat := 2 * (M + 1) ^ R * (M + 1) ^ u

theorem low_pos (M u : Nat) : 1 ≤ low M u := Nat.pow_pos (Nat.succ_pos M)

theorem low_le {M u v : Nat} (h : u ≤ v) : low M u ≤ low M v := Nat.pow_le_pow_right (Nat.succ_pos M) h

theorem high_eq (M R u : Nat) : high M R u = 2 * low M R * low M u := rfl

theorem low_twice (M R u : Nat) : 2 * low M R ≤ high M R u := by
  rw [high_eq]
  exact Nat.le_mul_of_pos_right _ (low_pos M u)

theorem low_le_high {M R u : Nat} (_ : u ≤ R) : low M u ≤ high M R u := by
  rw [high_eq]
  refine Nat.le_mul_of_pos_left _ ?_
  have := low_pos M R
  omega

theorem high_pos (M R u : Nat) : 1 ≤ high M R u := by
  have := low_twice M R u
  have := low_pos M R
  omega

theorem low_succ {M u v n : Nat} (h : u < v) (hn : n ≤ M) : n * low M u + 1 ≤ low M v := by
  refine Nat.le_trans ?_ (low_le h)
  show _ ≤ (M + 1) ^ (u + 1)
  rw [Nat.pow_succ, Nat.mul_succ]
  have := low_pos M u
  have h2 := Nat.mul_le_mul_right (low M u) hn
  rw [Nat.mul_comm M] at h2
  unfold low at *
  omega

theorem high_succ {M R u v n : Nat} (h : u < v) (hn : n ≤ M) : n * high M R u + 1 ≤ high M R v := by
  rw [high_eq, high_eq]
  have h1 := Nat.mul_le_mul_left (2 * low M R) (low_succ (M := M) h hn)
  rw [Nat.mul_add, Nat.mul_left_comm] at h1
  have := low_pos M R
  omega

theorem costs_paid {G : Language} (U : OneMeaning G) (hb : Bounded G) (hO : OneAhead regardless G) (hP : Productive regardless G)
    (hX : LeafExceptions G) (ho : Everywhere (ordinary G) G) (hG : ¬ LeftRecursive G) {M : Nat}
    (hM : ∀ r ∈ G.rules, load (.list r.definitionList) ≤ M) {task : Task} {here : Location} {rest : Str} {k : Nat}
    (h : Costs G task here rest k) : ∀ visited, Leads G visited task → Held G task → load task ≤ M →
      Paid G (M * high M G.rules.length G.rules.length) (low M (unvisited G visited)) (high M G.rules.length (unvisited G visited)) task here rest k := by
  have plain : ∀ {loc s}, Occurs G (.primary (.specialSequence loc s)) → ∀ here rest,
      (∃ evs n, G.special loc s loc here rest = .accept evs n) ∨ G.special loc s loc here rest = .unmatched :=
    fun h here rest => occurs_every ho h _ _ rfl _ here rest
  have lp := low_pos M
  have hp := high_pos M G.rules.length
  have all : unvisited G [] = G.rules.length := by
    unfold unvisited
    rw [List.filter_eq_self.mpr]
    simp
  generalize hR : G.rules.length = R at *
  have leR : ∀ visited, unvisited G visited ≤ R := fun visited => hR ▸ unvisited_le G visited
  -- the second task of two costs no more than a character
  have hA : ∀ n, n ≤ M → n * high M R (unvisited G []) ≤ M * high M R R := fun n hn => by
    rw [all]; exact Nat.mul_le_mul_right _ hn
  induction h with
  | empty =>
    intro visited hl hh _
    refine paid_leaf U hb (lp _) (hp _) rfl ?_
    rintro n ⟨evs, h⟩
    cases h
    exact .empty
  | terminal =>
    intro visited hl hh _
    refine paid_leaf U hb (lp _) (hp _) rfl ?_
    rintro n ⟨evs, h⟩
    cases h with
    | terminal h => rw [← List.prefix_iff_eq_take.mp h]; exact .terminal
  | special =>
    intro visited hl hh _
    refine paid_leaf U hb (lp _) (hp _) rfl ?_
    rintro n ⟨evs, h⟩
    cases h with
    | special h => exact .special h
    | forward hf => rcases plain hh _ _ with ⟨_, _, h'⟩ | h' <;> rw [hf] at h' <;> cases h'
    | forwardIgnored hf => rcases plain hh _ _ with ⟨_, _, h'⟩ | h' <;> rw [hf] at h' <;> cases h'
    | forwardStop _ _ _ h => exact h.elim
  | forward hf =>
    intro visited hl hh _
    rcases plain hh _ _ with ⟨_, _, h'⟩ | h' <;> rw [hf] at h' <;> cases h'
  | forwardUndefined hf =>
    intro visited hl hh _
    rcases plain hh _ _ with ⟨_, _, h'⟩ | h' <;> rw [hf] at h' <;> cases h'
  | grouped _ ih =>
    intro visited hl hh hw
    refine paid_step (e := 0) (ih visited (leads_sub hl fun r h => .grouped h) (.grouped hh) hw) (lp _) (hp _) (Nat.le_refl _) ?_
      (fun c hs hn => hs (.grouped hn)) ?_
    · rintro c ⟨w, h⟩; exact ⟨w, .grouped h⟩
    · rintro n ⟨evs, h⟩; cases h with | grouped h => exact ⟨evs, h⟩
  | @optional loc l here rest k _ ih =>
    intro visited hl hh hw
    have e : load (.rounds (.list l) 0 (some 1) false 0) + 1 = load (.primary (.optional loc l)) := by
      simp [load, loadPrimary]
    refine paid_step (e := 1) (ih visited (leads_sub hl fun r h => .optional h) ⟨.inl ⟨_, rfl, .optional hh⟩, by simp, fun h => by simpa using h 1 rfl⟩ (by omega)) (lp _) (hp _) (Nat.le_of_eq e) ?_
      ?_ ?_
    · rintro c ⟨_, w, h⟩; exact ⟨w, .taken h⟩
    · rintro c (h | ⟨_, h⟩) hn
      · exact h (.optional hn)
      · exact hO.optionals _ _ hh c h hn
    · rintro n ⟨evs, h⟩; cases h with | optional h => exact ⟨evs, h⟩
  | @repeated loc l here rest k _ ih =>
    intro visited hl hh hw
    have e : load (.rounds (.list l) 0 (some 4294967295) true 0) + 1 = load (.primary (.repeated loc l)) := by
      simp [load, loadPrimary]
    refine paid_step (e := 1) (ih visited (leads_sub hl fun r h => .repeated h) ⟨.inl ⟨_, rfl, .repeated hh⟩, fun _ => (hO.repeats _ _ hh).1, fun _ c h => .round hh h⟩ (by omega)) (lp _) (hp _) (Nat.le_of_eq e) ?_
      ?_ ?_
    · rintro c ⟨_, w, h⟩; exact ⟨w ++ [], .more h .noMore⟩
    · rintro c (h | ⟨_, h⟩) hn
      · exact h (.repeated hn)
      · exact (hO.repeats _ _ hh).2 c h hn
    · rintro n ⟨evs, h⟩; cases h with | repeated h => exact ⟨evs, h⟩
  | @reference loc name here rest r k h1 h2 _ ih =>
    intro visited hl hh hw
    have st : Starts G (.primary (.metaIdentifier loc name)) r := .reference h1 h2
    have ih := ih (r :: visited) (leads_rule hl h1 st) (.rule h1) (hM r h1)
    have lt := unvisited_lt h1 (leads_fresh hG hl st)
    have eq : ∀ {n}, Gets G (.primary (.metaIdentifier loc name)) here rest n → Gets G (.list r.definitionList) here rest n := by
      rintro n ⟨evs, h⟩
      cases h with
      | reference h3 h4 h5 => exact ⟨_, U.rule _ h3 _ h1 _ h4 h2 ▸ h5⟩
      | referenceStop _ _ _ h => exact h.elim
    have one : load (.primary (.metaIdentifier loc name)) = 1 := rfl
    rcases ih with ⟨h3, h4⟩ | ⟨c, t, m, h3, ⟨w, h4⟩, h5, h6, h7⟩
    · refine .inl ⟨?_, fun n hn => h4 n (eq hn)⟩
      have := low_succ lt (hM r h1)
      rw [one]
      omega
    · refine .inr ⟨c, t, m, h3, ⟨w, .reference h1 h2 h4⟩, h5, ?_, fun n hn => ?_⟩
      · have := high_succ (R := R) lt (hM r h1)
        rw [one]
        omega
      · rcases h7 n (eq hn) with h | ⟨h, h'⟩
        · exact .inl h
        · exact .inr ⟨h, fun c t hr hn => h' c t hr (.reference hn h1 h2)⟩
  | undefined h1 =>
    intro visited hl hh hw
    refine .inl ⟨?_, ?_⟩
    · have := lp (unvisited G visited)
      simp only [load, loadPrimary]
      omega
    · rintro n ⟨evs, h⟩
      cases h with
      | reference h3 h4 _ => exact absurd h4 (h1 _ h3)
      | referenceStop _ _ _ h => exact h.elim
  | @once p here rest k _ ih =>
    intro visited hl hh hw
    have e : load (.primary p) = load (.factor (.mk 1 p)) := by simp [load, loadFactor]
    refine paid_step (e := 0) (ih visited (leads_sub hl fun r h => .factor (by simp) h) (held_primary (.primary hh)) (by omega)) (lp _) (hp _) (Nat.le_of_eq e) ?_
      (fun c hs hn => hs (.primary hn)) ?_
    · rintro c ⟨w, h⟩
      have h' : Produces regardless G (.factor (.mk 1 p)) (c :: w ++ []) := Produces.again (k := 0) h .never
      rw [List.append_nil] at h'
      exact ⟨w, h'⟩
    · rintro n ⟨evs, h⟩
      cases h with
      | once h => exact ⟨evs, h⟩
      | counted h => exact absurd rfl h
  | @counted n p here rest k hn h1 ih =>
    intro visited hl hh hw
    have hc : (decide (n = 4294967295)) = false := by
      have : n < 4294967295 := (occurs_every ho hh).1
      simp only [decide_eq_false_iff_not]
      omega
    rw [hc] at ih
    have e : load (.rounds (.primary p) n (some n) false 0) + 1 = load (.factor (.mk n p)) := by
      simp [load, loadFactor, hn]
    by_cases h0 : n = 0
    · subst h0
      cases h1 with
      | enough =>
        refine .inl ⟨?_, ?_⟩
        · have := lp (unvisited G visited)
          simp only [load, loadFactor, if_neg hn, Nat.zero_mul, Nat.zero_add, Nat.one_mul]
          omega
        · rintro n ⟨evs, h⟩
          cases h with
          | counted _ h =>
            generalize ho' : Outcome.ok evs n = o' at h
            cases h with
            | enough => cases ho'; rfl
            | tooFew h => cases ho'
            | round h => exact absurd (h 0 rfl) (Nat.lt_irrefl _)
            | lastRound h => exact absurd (h 0 rfl) (Nat.lt_irrefl _)
            | roundStop h => exact absurd (h 0 rfl) (Nat.lt_irrefl _)
      | round h => exact absurd h (Nat.not_lt_zero _)
      | lastRound h => exact absurd h (Nat.not_lt_zero _)
    refine paid_step (e := 1) (ih visited (leads_sub hl fun r h => .factor h0 h) ⟨.inr ⟨_, rfl, .primary hh⟩, by simp, fun h c hf => .again hh (h n rfl) hf⟩ (by omega)) (lp _) (hp _) (Nat.le_of_eq e) ?_
      ?_ ?_
    · rintro c ⟨hi, w, h⟩
      have := reads_counted (p := p) (List.replicate n (c :: w)) (fun x hx => by rw [List.eq_of_mem_replicate hx]; exact h)
      rw [List.length_replicate] at this
      cases n with
      | zero => exact absurd rfl h0
      | succ n => rw [List.replicate_succ, List.flatten_cons, List.cons_append] at this; exact ⟨_, this⟩
    · rintro c (h | ⟨h, _⟩) hn
      · exact h (.primary hn)
      · exact absurd (h _ rfl) (Nat.lt_irrefl _)
    · rintro n' ⟨evs, h⟩
      cases h with
      | once h => exact absurd rfl hn
      | counted _ h =>
        have : decide (asBuilt.roundLimit = some n) = decide (n = 4294967295) := by
          simp [asBuilt, eq_comm]
        rw [this, hc] at h
        exact ⟨evs, h⟩
  | plain _ ih =>
    intro visited hl hh hw
    refine paid_step (e := 0) (ih visited (leads_sub hl fun r h => .plain h) (.plain hh) hw) (lp _) (hp _) (Nat.le_refl _) ?_
      (fun c hs hn => hs (.plain hn)) ?_
    · rintro c ⟨w, h⟩; exact ⟨w, .plain h⟩
    · rintro n ⟨evs, h⟩; cases h with | plain h => exact ⟨evs, h⟩
  | @except f x here rest evs n a b h1 _ h2 ih _ =>
    intro visited hl hh hw
    have hx : b ≤ loadFactor x := by
      cases x with
      | mk j p => exact exception_cost ho h2 (hX _ _ _ hh) (.exception hh)
    rw [Nat.add_assoc]
    refine paid_step (e := b + 1) (ih visited (leads_sub hl fun r h => .except h) (.base hh) (by simp only [load, loadTerm] at hw ⊢; omega)) (lp _) (hp _) (by simp only [load, loadTerm]; omega) ?_
      (fun c hs hn => hs (.except hn)) ?_
    · rintro c ⟨w, h⟩; exact ⟨w, .except h id⟩
    · rintro n ⟨evs, h⟩
      cases h with
      | exceptStop _ h => exact h.elim
      | notExcluded h => exact ⟨_, h⟩
      | notExcludedFail h => exact ⟨_, h⟩
      | excludedStop _ _ h => exact h.elim
  | @exceptFail f x here rest o a h1 h2 _ ih =>
    intro visited hl hh hw
    refine paid_step (e := 1) (ih visited (leads_sub hl fun r h => .except h) (.base hh) (by simp only [load, loadTerm] at hw ⊢; omega)) (lp _) (hp _) (by simp only [load, loadTerm]; omega) ?_
      (fun c hs hn => hs (.except hn)) ?_
    · rintro c ⟨w, h⟩; exact ⟨w, .except h id⟩
    · rintro n ⟨evs, h⟩
      cases h with
      | exceptStop _ h => exact h.elim
      | notExcluded h => exact ⟨_, h⟩
      | notExcludedFail h => exact ⟨_, h⟩
      | excludedStop _ _ h => exact h.elim
  | done =>
    intro visited hl hh _
    refine .inl ⟨Nat.zero_le _, ?_⟩
    rintro n ⟨evs, h⟩
    cases h
    rfl
  | @next t d here rest evs n a b hg h1 _ _ ih1 ih2 =>
    intro visited hl hh hw
    have hw1 : load (.term t) ≤ M := by simp only [load, loadSingle] at hw ⊢; omega
    have hw2 : load (.sequence d) ≤ M := by simp only [load, loadSingle] at hw ⊢; omega
    have e : load (.term t) + load (.sequence d) = load (.sequence (.cons t d)) := rfl
    have nul : n = 0 → MayBeEmpty G (.term t) := by
      rintro rfl
      exact ev_empty h1 trivial _ rfl
    refine paid_then (low_le_high (leR _)) (ev_bounded_ok hb h1) ⟨_, h1⟩ (ih1 visited (leads_sub hl fun r h => .first h) (.first hh) hw1) ?_
      (fun h0 => ih2 visited (leads_sub hl fun r h => .later (nul h0) hg h) (.later hh) hw2)
      (ih2 [] leads_nil (.later hh) hw2) (hA _ hw2) (fun _ => Nat.le_of_eq e) ?_ ?_ ?_ ?_ ?_ ?_
    · rintro N ⟨evs', h⟩
      generalize ho' : Outcome.ok evs' N = o at h
      cases h with
      | @next _ _ _ _ _ _ o _ h2 h3 =>
        have := ev_unique U h1 h2
        simp only [Outcome.ok.injEq] at this
        obtain ⟨rfl, rfl⟩ := this
        cases o with
        | ok evs2 n2 =>
          simp only [Outcome.after, Outcome.ok.injEq] at ho'
          exact ⟨n2, ho'.2, _, h3⟩
        | _ => cases ho'
      | dropped _ h => exact absurd h hg
      | nextFail h2 h3 =>
        subst ho'
        exact absurd trivial h3
    · rw [← e, Nat.add_mul]
      have h3 := Nat.mul_le_mul_left (load (.sequence d)) (low_twice M R (unvisited G visited))
      rw [Nat.mul_left_comm] at h3
      rw [all]
      omega
    · rintro c ⟨w, h⟩
      obtain ⟨w', h'⟩ := hP d (.later hh)
      exact ⟨w ++ w', .next h h'⟩
    · rintro h0 c ⟨w, h⟩
      exact ⟨w, .next (w := []) (produces_empty ho (nul h0) (.inl (.first hh))) h⟩
    · intro c (hs : ¬ _) hf
      exact hs (.rest hh hf)
    · intro c (hs : ¬ _) hn
      exact hs (.tail hn)
    · intro c (hs : ¬ _) hd hn
      obtain ⟨evs', hd⟩ := hd
      exact hs (.skip hn (produces_empty ho (ev_empty hd trivial _ rfl) (.inl (.later hh))))
  | @last t d here rest o a h1 h2 _ ih =>
    intro visited hl hh hw
    have hd : ∃ w, Produces regardless G (.sequence d) w := hP d (.later hh)
    have first : ∀ c, Heads G (.term t) c → Heads G (.sequence (.cons t d)) c := by
      rintro c ⟨w, h⟩
      obtain ⟨w', h'⟩ := hd
      exact ⟨w ++ w', .next h h'⟩
    have ih := ih visited (leads_sub hl fun r h => .first h) (.first hh) (by simp only [load, loadSingle] at hw ⊢; omega)
    have eq : ∀ {n}, Gets G (.sequence (.cons t d)) here rest n → Gets G (.term t) here rest n := by
      rintro n ⟨evs', h⟩
      generalize ho' : Outcome.ok evs' n = o' at h
      cases h with
      | next h3 h4 h5 =>
        have := ev_unique U h1 h4
        subst this
        rcases h2 with h2 | h2
        · exact absurd ⟨rfl, h2⟩ h3
        · exact absurd trivial h2
      | dropped _ _ h =>
        cases ho'
        exact ⟨_, h⟩
      | nextFail h2 h3 =>
        subst ho'
        exact absurd trivial h3
    rcases h2 with h2 | h2
    · have hd : d = .nil := (occurs_every ho hh).1 h2
      subst hd
      exact paid_step (e := 0) ih (lp _) (hp _) (by simp [load, loadSingle]) first (fun c hs hn => hs (.skip hn .done)) (fun n h => eq h)
    · have no : ∀ {n}, ¬ Gets G (.sequence (.cons t d)) here rest n := fun h => by
        obtain ⟨_, h⟩ := eq h
        have := ev_unique U h1 h
        subst this
        exact h2 trivial
      have le : ∀ Y, load (.term t) * Y ≤ load (.sequence (.cons t d)) * Y := fun Y =>
        Nat.mul_le_mul_right _ (by simp only [load, loadSingle]; omega)
      rcases ih with ⟨h3, h4⟩ | ⟨c, t', m, h3, h4, h5, h6, h7⟩
      · exact .inl ⟨Nat.le_trans h3 (le _), fun n hn => absurd hn no⟩
      · refine .inr ⟨c, t', m, h3, first c h4, h5, ?_, fun n hn => absurd hn no⟩
        have := le (high M R (unvisited G visited))
        omega
  | @single d here rest k _ ih =>
    intro visited hl hh hw
    have mem : d ∈ (DefinitionList.cons d .nil).toList := by simp [DefinitionList.toList]
    refine paid_step (e := 0) (ih visited (leads_sub hl fun r h => .choice mem h) (.definition hh mem) (by simp [load, loadAlternatives] at hw ⊢; omega)) (lp _) (hp _) (by simp [load, loadAlternatives]) ?_
      (fun c hs hn => hs (.alternative hn mem)) ?_
    · rintro c ⟨w, h⟩; exact ⟨w, .choice mem h⟩
    · rintro n ⟨evs, h⟩; cases h with | single h => exact ⟨evs, h⟩
  | @choice d d' l here rest k _ ih =>
    intro visited hl hh hw
    refine paid_step (e := 1) (ih visited (leads_sub hl ?_) ⟨_, [], rfl, hh⟩ (by simp only [load] at hw ⊢; omega)) (lp _) (hp _) (Nat.le_refl _) (fun c h => h)
      (fun c hs => hs _ [] rfl hh) ?_
    · rintro r ⟨d, h1, h2⟩; exact .choice h1 h2
    · rintro n ⟨evs, h⟩; cases h with | choice h => exact ⟨evs, h⟩
  | @first d l here rest o a h1 h2 _ ih =>
    rintro visited hl ⟨L, pre, h3, h4⟩ hw
    have mem : d ∈ L.toList := by rw [h3]; simp [DefinitionList.toList]
    refine paid_step (e := 0) (ih visited (leads_sub hl fun r h => ⟨d, by simp [DefinitionList.toList], h⟩) (.definition h4 mem) (by simp only [load, loadAlternatives] at hw ⊢; omega)) (lp _) (hp _) (by simp [load, loadAlternatives]) ?_
      ?_ ?_
    · rintro c ⟨w, h⟩; exact ⟨w, .choice (by simp [DefinitionList.toList]) h⟩
    · intro c (hs : ¬ _) L' pre' h5 h6 hn
      exact hs (.alternative hn (by rw [h5]; simp [DefinitionList.toList]))
    · rintro n ⟨evs, h⟩
      generalize ho' : Outcome.ok evs n = o' at h
      cases h with
      | first h => subst ho'; exact ⟨_, h⟩
      | last => cases ho'
      | other h5 =>
        have := ev_unique U h1 h5
        subst this
        rcases h2 with h2 | h2
        · cases h2
        · exact absurd rfl (h2 _ _ _)
      | otherFail => cases ho'
  | @other d d' l here rest e evs n a b h1 _ _ ih1 ih2 =>
    rintro visited hl ⟨L, pre, h3, h4⟩ hw
    have mem : d ∈ L.toList := by rw [h3]; simp [DefinitionList.toList]
    have ih1 := ih1 visited (leads_sub hl fun r h => ⟨d, by simp [DefinitionList.toList], h⟩) (.definition h4 mem)
        (by simp only [load, loadAlternatives] at hw ⊢; omega)
    have h3' : L.toList = (pre ++ [d]) ++ (DefinitionList.cons d' l).toList := by rw [h3]; simp [DefinitionList.toList]
    have ih2 := ih2 visited (leads_sub hl fun r ⟨z, h, h'⟩ => ⟨z, by simp [DefinitionList.toList] at h ⊢; exact .inr h, h'⟩) ⟨L, pre ++ [d], h3', h4⟩
        (by simp only [load, loadAlternatives] at hw ⊢; omega)
    have no : ∀ {n}, ¬ Gets G (.sequence d) here rest n := by
      rintro n ⟨_, h⟩
      have := ev_unique U h1 h
      cases this
    have eq : ∀ {n}, Gets G (.alternatives (.cons d (.cons d' l))) here rest n → Gets G (.alternatives (.cons d' l)) here rest n := by
      rintro n ⟨evs, h⟩
      generalize ho' : Outcome.ok evs n = o' at h
      cases h with
      | first h => subst ho'; exact absurd ⟨_, h⟩ no
      | other _ h => subst ho'; exact ⟨_, h⟩
      | otherFail => cases ho'
    have e : load (.sequence d) + load (.alternatives (.cons d' l)) = load (.alternatives (.cons d (.cons d' l))) := rfl
    have le : ∀ Y, load (.sequence d) * Y + load (.alternatives (.cons d' l)) * Y = load (.alternatives (.cons d (.cons d' l))) * Y := fun Y => by
      rw [← e, Nat.add_mul]
    have le1 := le (low M (unvisited G visited))
    have le2 := le (high M R (unvisited G visited))
    have le3 := fun n => Nat.mul_le_mul_left n (low_le_high (M := M) (leR visited))
    have le4 := le3 (load (.sequence d))
    have le5 := le3 (load (.alternatives (.cons d' l)))
    -- two alternatives are told apart
    have apart : ∀ z ∈ (DefinitionList.cons d' l).toList, ¬ Produces regardless G (.sequence d) [] ∧
        (∀ c, First regardless G (.sequence d) c → ¬ First regardless G (.sequence z) c) ∧
        (Produces regardless G (.sequence z) [] → ∀ L' pre', L'.toList = pre' ++ (DefinitionList.cons d (.cons d' l)).toList → Occurs G (.list L') →
          ∀ c, First regardless G (.sequence d) c → ¬ Next regardless G (.list L') c) := by
      intro z hz
      have use : ∀ (L' : DefinitionList) pre', L'.toList = pre' ++ (DefinitionList.cons d (.cons d' l)).toList → Occurs G (.list L') → _ := fun L' pre' h5 h6 => by
        have := hO.choices L' h6
        rw [h5] at this
        have := (List.pairwise_append.mp this).2.1
        exact (List.pairwise_cons.mp this).1 z hz
      exact ⟨(use L pre h3 h4).1, (use L pre h3 h4).2.1, fun hz L' pre' h5 h6 => (use L' pre' h5 h6).2.2 hz⟩
    rcases ih2 with ⟨h5, h6⟩ | ⟨c, t, m, h5, h6, h7, h8, h9⟩
    · rcases ih1 with ⟨h7, h8⟩ | ⟨c, t, m, h7, h8, h9, h10, h11⟩
      · exact .inl ⟨by omega, fun n hn => h6 n (eq hn)⟩
      · refine .inr ⟨c, t, m, h7, ?_, h9, by omega, fun n hn => ?_⟩
        · obtain ⟨w, h⟩ := h8
          exact ⟨w, .choice (by simp [DefinitionList.toList]) h⟩
        · have hn := eq hn
          have := h6 n hn
          subst this
          refine .inr ⟨Nat.zero_le _, fun c' t' hr L' pre' h12 h13 => ?_⟩
          rw [List.drop_zero, h7] at hr
          simp only [List.cons.injEq] at hr
          obtain ⟨rfl, rfl⟩ := hr
          obtain ⟨evs', hn⟩ := hn
          have hz : MayBeEmpty G (.list (.cons d' l)) := ev_empty hn trivial _ rfl
          cases hz with
          | choice hz1 hz2 =>
            refine (apart _ hz1).2.2 (produces_empty ho hz2 (.inl (.definition h4 ?_))) L' pre' h12 h13 c h8
            rw [h3']
            exact List.mem_append.mpr (.inr hz1)
    · have h6' : Heads G (.alternatives (.cons d (.cons d' l))) c := by
        obtain ⟨w, h⟩ := h6
        cases h with
        | choice h h' => exact ⟨w, .choice (by simp [DefinitionList.toList] at h ⊢; exact .inr h) h'⟩
      rcases ih1 with ⟨h10, h11⟩ | ⟨c', t', m', h10, h11, _⟩
      · refine .inr ⟨c, t, m, h5, h6', h7, by omega, fun n hn => ?_⟩
        rcases h9 n (eq hn) with h | ⟨h, h'⟩
        · exact .inl h
        · refine .inr ⟨h, fun c t hr L' pre' h12 h13 => h' c t hr L' (pre' ++ [d]) ?_ h13⟩
          rw [h12]
          simp [DefinitionList.toList]
      · rw [h5] at h10
        simp only [List.cons.injEq] at h10
        obtain ⟨rfl, rfl⟩ := h10
        obtain ⟨w, h⟩ := h6
        cases h with
        | choice h h' => exact absurd ⟨w, h'⟩ ((apart _ h).2.1 c h11)
  | enough h1 =>
    intro visited hl hh hw
    refine .inl ⟨Nat.zero_le _, ?_⟩
    rintro n ⟨evs, h⟩
    generalize ho' : Outcome.ok evs n = o' at h
    cases h with
    | enough => cases ho'; rfl
    | round h => exact absurd (h _ rfl) (Nat.not_lt.mpr h1)
    | livelock h => cases ho'
    | lastRound h => exact absurd (h _ rfl) (Nat.not_lt.mpr h1)
    | tooFew h => cases ho'
    | roundStop h => exact absurd (h _ rfl) (Nat.not_lt.mpr h1)
  | @round body min max guarded i here rest evs n a b hi hg h1 _ _ ih1 ih2 =>
    rintro visited hl ⟨hb1, hb2, hb3⟩ hw
    have hbody := held_body hb1
    have hw1 : load body ≤ M := by
      refine Nat.le_trans ?_ hw
      simp only [load, Option.getD_some]
      split
      · omega
      · exact Nat.le_mul_of_pos_left _ (by omega)
    have hw2 : load (.rounds body min (some max) guarded (i + 1)) ≤ M := by
      refine Nat.le_trans ?_ hw
      simp only [load, Option.getD_some]
      split
      · omega
      · exact Nat.mul_le_mul_right _ (by omega)
    have nul : n = 0 → guarded = false := by
      rintro rfl
      cases guarded with
      | false => rfl
      | true => exact absurd ⟨rfl, rfl⟩ hg
    have st : ∀ r, Starts G body r → Starts G (.rounds body min (some max) guarded i) r := by
      intro r h
      rcases hb1 with ⟨l, rfl, _⟩ | ⟨p, rfl, _⟩ <;> exact h
    refine paid_then (low_le_high (leR _)) (ev_bounded_ok hb h1) ⟨_, h1⟩ (ih1 visited (leads_sub hl st) hbody hw1) ?_
      (fun h0 => ih2 visited (leads_sub hl fun r h => h) ⟨hb1, hb2, hb3⟩ hw2)
      (ih2 [] leads_nil ⟨hb1, hb2, hb3⟩ hw2) (hA _ hw2) ?_ ?_ ?_ ?_ ?_ ?_ ?_
    · rintro N ⟨evs', h⟩
      generalize ho' : Outcome.ok evs' N = o' at h
      cases h with
      | enough h => exact absurd h (Nat.not_le.mpr hi)
      | @round _ _ _ _ _ _ _ _ _ o _ _ h2 h3 =>
        have := ev_unique U h1 h2
        simp only [Outcome.ok.injEq] at this
        obtain ⟨rfl, rfl⟩ := this
        cases o with
        | ok evs2 n2 =>
          simp only [Outcome.afterRound, Outcome.ok.injEq] at ho'
          exact ⟨n2, ho'.2, _, h3⟩
        | _ => cases ho'
      | livelock => cases ho'
      | lastRound _ _ h2 => have := ev_unique U h1 h2; cases this
      | tooFew => cases ho'
      | roundStop _ _ h => subst ho'; exact h.elim
    · intro h0
      have := nul h0
      subst this
      simp only [load, Option.getD_some, Bool.false_eq_true, if_false]
      rw [show max - i = 1 + (max - (i + 1)) by omega, Nat.add_mul, Nat.one_mul]
      exact Nat.le_refl _
    · have h3 := Nat.mul_le_mul_left (load body) (low_twice M R (unvisited G visited))
      rw [Nat.mul_left_comm] at h3
      rw [all]
      simp only [load, Option.getD_some]
      split
      · rw [Nat.mul_assoc, Nat.mul_assoc]
        omega
      · have e1 : (max - i) * load body * high M R (unvisited G visited) = load body * high M R (unvisited G visited) +
            (max - (i + 1)) * (load body * high M R (unvisited G visited)) := by
          rw [show max - i = 1 + (max - (i + 1)) by omega, Nat.mul_assoc, Nat.add_mul, Nat.one_mul]
        have h4 : load body * low M R ≤ load body * high M R (unvisited G visited) := by omega
        have h5 := Nat.mul_le_mul_left (max - (i + 1)) h4
        rw [e1, Nat.mul_assoc]
        omega
    · intro c h
      exact ⟨fun m hm => by cases hm; exact hi, (heads_body hb1).mp h⟩
    · rintro h0 c ⟨_, h⟩
      exact ⟨fun m hm => by cases hm; exact hi, h⟩
    · rintro c hs ⟨h, h'⟩
      refine (stuck_body hb1).mp hs (hb3 (fun m hm => ?_) c h')
      have := h m hm
      omega
    · exact fun c hs => hs
    · exact fun c hs _ => .inl ((stuck_body hb1).mp hs)
  | @lastRound body min max guarded i here rest o a hi h1 h2 _ ih =>
    rintro visited hl ⟨hb1, hb2, hb3⟩ hw
    have hbody := held_body hb1
    have hle : load body ≤ load (.rounds body min (some max) guarded i) := by
      simp only [load, Option.getD_some]
      split
      · omega
      · exact Nat.le_mul_of_pos_left _ (by omega)
    have st : ∀ r, Starts G body r → Starts G (.rounds body min (some max) guarded i) r := by
      intro r h
      rcases hb1 with ⟨l, rfl, _⟩ | ⟨p, rfl, _⟩ <;> exact h
    have ih := ih visited (leads_sub hl st) hbody (by omega)
    have hno : ¬ o.IsOk := by
      rcases h2 with h2 | ⟨h2, evs, rfl⟩
      · exact h2
      · exfalso
        refine hb2 h2 ?_
        rcases hb1 with ⟨l, rfl, hb1⟩ | ⟨p, rfl, hb1⟩
        · exact produces_empty ho (ev_empty h1 trivial _ rfl) (.inl hb1)
        · exact produces_empty ho (ev_empty h1 trivial _ rfl) (.inl hb1)
    have gets : ∀ {n}, Gets G (.rounds body min (some max) guarded i) here rest n → n = 0 ∧ min ≤ i := by
      rintro n ⟨evs', h⟩
      generalize ho' : Outcome.ok evs' n = o' at h
      cases h with
      | enough h => exact absurd h (Nat.not_le.mpr hi)
      | round _ _ h2 h3 =>
        have := ev_unique U h1 h2
        subst this
        exact absurd trivial hno
      | livelock => cases ho'
      | lastRound _ h => cases ho'; exact ⟨rfl, h⟩
      | tooFew => cases ho'
      | roundStop _ _ h => subst ho'; exact h.elim
    rcases ih with ⟨h3, h4⟩ | ⟨c, t, m, h3, h4, h5, h6, h7⟩
    · refine .inl ⟨Nat.le_trans h3 (Nat.mul_le_mul_right _ hle), fun n hn => (gets hn).1⟩
    · refine .inr ⟨c, t, m, h3, ⟨fun m hm => by cases hm; exact hi, (heads_body hb1).mp h4⟩, h5, ?_, fun n hn => ?_⟩
      · have := Nat.mul_le_mul_right (high M R (unvisited G visited)) hle
        omega
      · obtain ⟨rfl, hmin⟩ := gets hn
        refine .inr ⟨Nat.zero_le _, fun c' t' hr => .inr ⟨fun m hm => by cases hm; omega, ?_⟩⟩
        rw [List.drop_zero, h3] at hr
        simp only [List.cons.injEq] at hr
        obtain ⟨rfl, rfl⟩ := hr
        exact (heads_body hb1).mp h4

/-! ## Linear bounds, and grammars whose definitions derive some text -/

/-- All that a parse costs is paid by the characters of the text. -/
theorem costs_linear {G : Language} (U : OneMeaning G) (hb : Bounded G) (hO : OneAhead regardless G) (hP : Productive regardless G)
    (hX : LeafExceptions G) (ho : Everywhere (ordinary G) G) (hG : ¬ LeftRecursive G) :
    ∃ B, ∀ loc name here text k, Costs G (.primary (.metaIdentifier loc name)) here text k → k ≤ B * (text.length + 1) := by
  have hM : ∃ M, 1 ≤ M ∧ ∀ r ∈ G.rules, load (.list r.definitionList) ≤ M := by
    generalize G.rules = rules
    induction rules with
    | nil => exact ⟨1, Nat.le_refl _, fun _ h => by cases h⟩
    | cons r rs ih =>
      obtain ⟨M, h1, h2⟩ := ih
      refine ⟨M + load (.list r.definitionList), by omega, fun x hx => ?_⟩
      rcases List.mem_cons.mp hx with rfl | hx
      · omega
      · have := h2 x hx; omega
  obtain ⟨M, h1, hM⟩ := hM
  refine ⟨M * high M G.rules.length G.rules.length, fun loc name here text k h => ?_⟩
  have all : unvisited G [] = G.rules.length := by
    unfold unvisited
    rw [List.filter_eq_self.mpr]
    simp
  have := costs_paid U hb hO hP hX ho hG hM h [] leads_nil trivial h1
  rw [all] at this
  have one : load (.primary (.metaIdentifier loc name)) = 1 := rfl
  have le : high M G.rules.length G.rules.length ≤ M * high M G.rules.length G.rules.length := Nat.le_mul_of_pos_left _ h1
  have ll := low_le_high (M := M) (Nat.le_refl G.rules.length)
  rw [Nat.mul_succ]
  rcases this with ⟨h2, _⟩ | ⟨c, t, m, rfl, _, h3, h4, _⟩
  · rw [one] at h2
    omega
  · rw [one] at h4
    have := Nat.mul_le_mul_left (M * high M G.rules.length G.rules.length) h3
    rw [List.length_cons, Nat.mul_succ]
    omega

section
variable {E : Factor → Str → Prop} {G : Language} (hsp : ∀ loc s, Occurs G (.primary (.specialSequence loc s)) → ∃ w, Produces E G (.primary (.specialSequence loc s)) w)
  (hnm : ∀ loc n, Occurs G (.primary (.metaIdentifier loc n)) → ∃ w, Produces E G (.primary (.metaIdentifier loc n)) w)
  (hx : ∀ x w, ¬ E x w)
include hsp hnm hx

mutual
theorem productive_primary : ∀ p : Primary, PrimaryShape p → Occurs G (.primary p) → ∃ w, Produces E G (.primary p) w
  | .optional _ _, _, _ => ⟨_, .leftOut⟩
  | .repeated _ _, _, _ => ⟨_, .noMore⟩
  | .grouped _ l, hs, h => by
    obtain ⟨w, h⟩ := productive_list l hs.1 hs.2 (fun d hd => .definition (.grouped h) hd)
    exact ⟨w, .grouped h⟩
  | .metaIdentifier _ _, _, h => hnm _ _ h
  | .terminalString _ _, _, _ => ⟨_, .terminal⟩
  | .specialSequence _ _, _, h => hsp _ _ h
  | .empty _, _, _ => ⟨_, .empty⟩
theorem productive_factor : ∀ f : Factor, FactorShape f → Occurs G (.factor f) → ∃ w, Produces E G (.factor f) w
  | .mk k p, hs, h => by
    obtain ⟨w, h⟩ := productive_primary p hs.2 (.primary h)
    have := reads_counted (p := p) (List.replicate k w) (fun x hx => by rw [List.eq_of_mem_replicate hx]; exact h)
    rw [List.length_replicate] at this
    exact ⟨_, this⟩
theorem derivable_term : ∀ t : Term, TermShape t → Occurs G (.term t) → ∃ w, Produces E G (.term t) w
  | .plain f, hs, h => by
    obtain ⟨w, h⟩ := productive_factor f hs (.plain h)
    exact ⟨w, .plain h⟩
  | .except f x, hs, h => by
    obtain ⟨w, h⟩ := productive_factor f hs.1 (.base h)
    exact ⟨w, .except h (hx x w)⟩
theorem derivable_single : ∀ d : SingleDefinition, SingleShape d → Occurs G (.sequence d) → ∃ w, Produces E G (.sequence d) w
  | .nil, _, _ => ⟨_, .done⟩
  | .cons t d, hs, h => by
    obtain ⟨w, h1⟩ := derivable_term t hs.1 (.first h)
    obtain ⟨w', h2⟩ := derivable_single d hs.2 (.later h)
    exact ⟨_, .next h1 h2⟩
theorem productive_list : ∀ l : DefinitionList, l ≠ .nil → ListShape l → (∀ d ∈ l.toList, Occurs G (.sequence d)) → ∃ w, Produces E G (.list l) w
  | .nil, hn, _, _ => absurd rfl hn
  | .cons d l, _, hs, h => by
    obtain ⟨w, h⟩ := derivable_single d hs.2.1 (h d (by simp [DefinitionList.toList]))
    exact ⟨w, .choice (by simp [DefinitionList.toList]) h⟩
end
end

theorem listShape_mem {d : SingleDefinition} : ∀ {l : DefinitionList}, ListShape l → d ∈ l.toList → SingleShape d
  | .nil, _, hd => by simp [DefinitionList.toList] at hd
  | .cons z l, h, hd => by
    rcases List.mem_cons.mp (by simpa [DefinitionList.toList] using hd) with rfl | hd
    · exact h.2.1
    · exact listShape_mem h.2.2 hd

/-- Parts of well-shaped rules are well-shaped. -/
theorem occurs_shape {G : Language} (hs : ∀ r ∈ G.rules, RuleShape r) {task : Task} (h : Occurs G task) : TaskShape task := by
  induction h with
  | rule hr => exact (hs _ hr).2
  | definition _ hd ih => exact listShape_mem ih.2 hd
  | first _ ih => exact ih.1
  | later _ ih => exact ih.2
  | plain _ ih => exact ih
  | base _ ih => exact ih.1
  | exception _ ih => exact ih.2
  | primary _ ih => exact ih.2
  | optional _ ih => exact ih
  | repeated _ ih => exact ih
  | grouped _ ih => exact ih

/-- It suffices that every name and every special sequence of the grammar derives some text. -/
theorem productive_of {G : Language} (hs : ∀ r ∈ G.rules, RuleShape r)
    (hsp : ∀ loc s, Occurs G (.primary (.specialSequence loc s)) → ∃ w, Produces regardless G (.primary (.specialSequence loc s)) w)
    (hnm : ∀ loc n, Occurs G (.primary (.metaIdentifier loc n)) → ∃ w, Produces regardless G (.primary (.metaIdentifier loc n)) w) :
    Productive regardless G := fun d h => derivable_single hsp hnm (fun _ _ h => h) d (occurs_shape hs h) h

end Ebnf
