import Verif.Proofs.Viable
import Verif.Props.Errors

set_option autoImplicit false

/-! # C67: errors are not reported too late -/

namespace Ebnf.Props

open Ebnf Ebnf.Spec

variable {dbg : Bool}

/-- C67: an error that is not the own error of a scanner is reported at the latest where the text stops being the beginning of a text of
the language (in the context-free reading, exceptions aside): what lies before the place of the error can be completed.  This is for
grammars in which nothing follows a bare group, scanners do not forward, and every part derives something. -/
theorem c67_prefix_viable {G : Language} {start : SyntaxRule} {m : Machine} (hp : ParserFor dbg G start m)
    (hg : Everywhere (straight G) G) (hd : Everywhere (productive G) G) {r : Reader} {here : Location} {text : Str}
    (hi : InputAt dbg r here text) {e : Error} (h : Returns m r (.err e)) :
    (∃ l s d here' rest, G.special l s d here' rest = .error e) ∨
      ∃ pre post, text = pre ++ post ∧ e.location = lineColumn here pre ∧ Viable G start pre := by
  have H : Hides (straight G) G asBuilt { asBuilt with dropAfterGroup := false, ignoreForward := false } (text.length + 1) :=
    ⟨hg, by intro l n _ _ h; simp at h, .inr fun _ _ h => h, .inl rfl, .inr fun _ h => h, .inl rfl⟩
  have U := parser_oneMeaning hp
  have named : EveryPrimary (productive G) (.metaIdentifier start.location start.metaIdentifier) := by
    obtain ⟨_, h1, _⟩ := hp.shape _ hp.start
    have h2 := hd _ hp.start
    cases hl : start.definitionList with
    | nil => exact absurd hl h1
    | cons d l =>
      rw [hl] at h2
      obtain ⟨w, hw⟩ := productive_single d h2.1
      exact ⟨w, .reference hp.start (.refl _) (by rw [hl]; exact .choice (by simp [DefinitionList.toList]) hw)⟩
  have derived : ∀ {w}, Derives G (.primary (.metaIdentifier start.location start.metaIdentifier)) w →
      Derives G (.list start.definitionList) w := by
    intro w h
    cases h with
    | reference h1 h2 h3 => rw [U.rule _ hp.start _ h1 _ (.refl _) h2]; exact h3
  have named' : EveryPrimary (straight G) (.metaIdentifier start.location start.metaIdentifier) := by intro l s h; cases h
  have key : ∀ {o}, Ev asBuilt G (.primary (.metaIdentifier start.location start.metaIdentifier)) here text o → errorOf o = some e →
      (∃ l s d here' rest, G.special l s d here' rest = .error e) ∨
      ∃ pre post, text = pre ++ post ∧ e.location = lineColumn here pre ∧ Viable G start pre := by
    intro o h ho
    have h := transfer H (parser_bounded hp) h named' (Nat.lt_succ_self _) trivial
    rcases ev_reached rfl rfl hd hg h named named' trivial e ho with h | ⟨pre, post, h1, h2, w, h3⟩
    · exact .inl h
    · exact .inr ⟨pre, post, h1, h2, w, derived h3⟩
  have h := (returns_iff hp hi _).mp h
  generalize hx : Res.err e = x at h
  cases h with
  | accepted => cases hx
  | @leftover evs n h1 h2 =>
    cases hx
    refine .inr ⟨text.take n, text.drop n, (List.take_append_drop ..).symm, rfl, [], ?_⟩
    rw [List.append_nil]
    exact derived (ev_derives rfl rfl (transfer H (parser_bounded hp) h1 named' (Nat.lt_succ_self _) trivial) trivial _ _ rfl)
  | rejected h => cases hx; exact key h rfl
  | aborted h => cases hx; exact key h rfl
  | crashed => cases hx

/-- The rules `A='a',[B]|'b';` and `B='(',A,')';`. -/
private def ruleA : SyntaxRule :=
  ⟨⟨[], 1, 1⟩, ['A'], .cons (.cons (.plain (.mk 1 (.terminalString ⟨[], 1, 3⟩ ['a'])))
    (.cons (.plain (.mk 1 (.optional ⟨[], 1, 7⟩ (.cons (.cons (.plain (.mk 1 (.metaIdentifier ⟨[], 1, 8⟩ ['B']))) .nil) .nil))))
      .nil)) (.cons (.cons (.plain (.mk 1 (.terminalString ⟨[], 1, 11⟩ ['b']))) .nil) .nil)⟩
private def ruleB : SyntaxRule :=
  ⟨⟨[], 1, 15⟩, ['B'], .cons (.cons (.plain (.mk 1 (.terminalString ⟨[], 1, 17⟩ ['(']))) (.cons (.plain (.mk 1
    (.metaIdentifier ⟨[], 1, 21⟩ ['A']))) (.cons (.plain (.mk 1 (.terminalString ⟨[], 1, 23⟩ [')']))) .nil))) .nil⟩

/-- Nothing may follow `b`. -/
example : ∃ m, ParserFor false (plainLanguage [ruleA, ruleB]) ruleA m ∧
    Everywhere (straight (plainLanguage [ruleA, ruleB])) (plainLanguage [ruleA, ruleB]) ∧
    Everywhere (productive (plainLanguage [ruleA, ruleB])) (plainLanguage [ruleA, ruleB]) ∧
    InputAt false (readerOn "b(b") (Location.new []) "b(b".toList ∧
    Returns m (readerOn "b(b") (.err ⟨⟨[], 1, 2⟩, .expected "EOF".toList (.text ['(', 'b'] false)⟩) := by
  obtain ⟨m, h1, h2, _⟩ := samplePlainOf "A='a',[B]|'b';B='(',A,')';" ruleA [ruleB] (by decide +kernel) (by decide +kernel)
  refine ⟨m, h1, ?_, ?_, input_readerOn _, h2 "b(b" 100 _ (by decide +kernel) (by simp)⟩
  · intro r hr
    simp [plainLanguage] at hr
    rcases hr with rfl | rfl <;>
    simp [ruleA, ruleB, EveryList, EverySingle, EveryTerm, EveryFactor, EveryPrimary, straight, groupsLast, noForwards, IsBareGroup]
  · have one : ∀ loc (s : Str), Derives (plainLanguage [ruleA, ruleB]) (.primary (.terminalString loc s)) s := fun _ _ => .terminal
    have term : ∀ {p w}, Derives (plainLanguage [ruleA, ruleB]) (.primary p) w →
        Derives (plainLanguage [ruleA, ruleB]) (.term (.plain (.mk 1 p))) w := by
      intro p w h
      have := Derives.again h .never
      rw [List.append_nil] at this
      exact .plain this
    have A : ∀ loc, Derives (plainLanguage [ruleA, ruleB]) (.primary (.metaIdentifier loc ['A'])) ['b'] := fun loc =>
      .reference (r := ruleA) (by simp [plainLanguage]) (.refl _)
        (.choice (d := .cons (.plain (.mk 1 (.terminalString ⟨[], 1, 11⟩ ['b']))) .nil)
          (by simp [ruleA, DefinitionList.toList]) (.next (w := ['b']) (w' := []) (term (one _ _)) .done))
    have B : ∀ loc, Derives (plainLanguage [ruleA, ruleB]) (.primary (.metaIdentifier loc ['B'])) ['(', 'b', ')'] := fun loc =>
      .reference (r := ruleB) (by simp [plainLanguage]) (.refl _)
        (.choice (d := .cons (.plain (.mk 1 (.terminalString ⟨[], 1, 17⟩ ['(']))) (.cons (.plain (.mk 1
          (.metaIdentifier ⟨[], 1, 21⟩ ['A']))) (.cons (.plain (.mk 1 (.terminalString ⟨[], 1, 23⟩ [')']))) .nil)))
          (by simp [ruleB, DefinitionList.toList])
          (.next (w := ['(']) (w' := ['b', ')']) (term (one _ _)) (.next (w := ['b']) (w' := [')']) (term (A _))
            (.next (w := [')']) (w' := []) (term (one _ _)) .done))))
    intro r hr
    simp [plainLanguage] at hr
    rcases hr with rfl | rfl
    · exact ⟨⟨trivial, ⟨trivial, _, one _ _⟩, trivial, ⟨trivial, ⟨_, .leftOut⟩, ⟨trivial, ⟨trivial, _, B _⟩, trivial⟩, trivial⟩, trivial⟩,
        ⟨trivial, ⟨trivial, _, one _ _⟩, trivial⟩, trivial⟩
    · exact ⟨⟨trivial, ⟨trivial, _, one _ _⟩, trivial, ⟨trivial, _, A _⟩, trivial, ⟨trivial, _, one _ _⟩, trivial⟩, trivial⟩

end Ebnf.Props
