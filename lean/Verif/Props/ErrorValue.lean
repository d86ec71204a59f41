import Verif.Spec.ErrorValue
import Verif.Props.DebugText

/-!
# C128: what the printed errors tell
-/

set_option autoImplicit false

namespace Bnf.Props
open Bnf Spec

/-- The error of a text is always the same kind of message. -/
theorem toResult_message {α : Type} {dbg : Str → Str} {x : E.Res α} {m : Str} (h : x.toResult dbg = some (.error m)) :
    ∃ i k, m = E.message dbg i k := by
  cases x with
  | ok r v => simp [E.Res.toResult] at h
  | err i k => simp only [E.Res.toResult, Option.some.injEq, Except.error.injEq] at h; exact ⟨i, k, h.symm⟩
  | fuel => simp [E.Res.toResult] at h

/-- The errors inside a traversal. -/
theorem evalTerms_errors {σ : Type} {Q : Error → Prop} {trav : Str → σ → GenRes σ} (ht : ∀ nt st e st', trav nt st = .done (.error e) st' → Q e) :
    ∀ (ts : List Term) (r : Str) (st : σ) (e : Error) (st' : σ), evalTerms trav ts r st = .done (.error e) st' → Q e
  | [], r, st, e, st', h => by simp [evalTerms] at h
  | .terminal t :: ts, r, st, e, st', h => evalTerms_errors ht ts _ _ _ _ h
  | .nonterminal nt :: ts, r, st, e, st', h => by
    rw [evalTerms] at h
    cases hr : trav nt st with
    | fuel => simp [hr] at h
    | panic => simp [hr] at h
    | done x st1 =>
      rw [hr] at h
      cases x with
      | ok s => exact evalTerms_errors ht ts _ _ _ _ h
      | error e1 =>
        simp only [GenRes.done.injEq, Except.error.injEq] at h
        obtain ⟨rfl, rfl⟩ := h
        exact ht _ _ _ _ hr

theorem traverse_errors {σ : Type} {g : Grammar} {S : Strategy σ} {f : Callback σ} : ∀ (n : Nat) (ident : Str) (d : Nat) (st : σ) (e : Error) (st' : σ),
    traverse g S f n ident d st = .done (.error e) st' → e = .generateError msgNoChoice ∨ e = .generateError msgNoExpression
  | 0, ident, d, st, e, st', h => by simp [traverse] at h
  | n + 1, ident, d, st, e, st', h => by
    rw [traverse] at h
    split at h
    · simp at h
    · split at h
      · simp only [GenRes.done.injEq, Except.error.injEq] at h
        exact .inl h.1.symm
      · split at h
        · simp at h
        · simp only [GenRes.done.injEq, Except.error.injEq] at h
          exact .inr h.1.symm
        · split at h
          · simp only at h
            split at h
            · simp at h
            · exact traverse_errors n _ _ _ _ _ h
          · exact evalTerms_errors (Q := fun e => e = .generateError msgNoChoice ∨ e = .generateError msgNoExpression)
              (fun nt st e st' h => traverse_errors n _ _ _ _ _ h) _ _ _ _ _ h

/-- C128: all errors of checking are `ValidationError` with one of two texts, all errors of generating are `GenerateError` with one of five, whatever the strategy
and the callback (errors of reading are `ParseError` with the texts of C69). -/
theorem C128_kinds (g : Grammar) (ord : List Str → List Str) :
    (∀ e, g.validate ord = .error e ∨ g.buildParser ord = .error e → ∃ m, e = .validationError m ∧
      (m = "Grammar must have at least one production".toList ∨ ∃ n, m = "Undefined nonterminals: <".toList ++ n ++ ">".toList)) ∧
    ∀ {σ : Type} (S : Strategy σ) (f : Callback σ) (fuel : Nat) (st : σ) (e : Error) (st' : σ), g.generateWith S f fuel st = .done (.error e) st' →
      ∃ m, e = .generateError m ∧
        (m ∈ ["Production has no choosable alternative!".toList, "Couldn't select random Expression!".toList,
            "Can't generate, first rule in grammar doesn't lead to a terminal state".toList, "Failed to get first production!".toList] ∨
          ∃ p, g.productions.head? = some p ∧ m = "Terminal type cannot define a production in '".toList ++ p.display ++ "'!".toList) := by
  refine ⟨fun e h => ?_, fun {σ} S f fuel st e st' h => ?_⟩
  · rcases h with h | h
    · unfold Grammar.validate at h
      split at h
      · cases h; exact ⟨_, rfl, .inl rfl⟩
      · simp only at h
        split at h
        · cases h; exact ⟨_, rfl, .inr ⟨_, rfl⟩⟩
        · cases h
    · unfold Grammar.buildParser at h
      split at h
      · cases h; exact ⟨_, rfl, .inl rfl⟩
      · split at h
        · rename_i e' he
          cases h
          unfold ParseGrammar.new at he
          simp only at he
          split at he
          · cases he; exact ⟨_, rfl, .inr ⟨_, rfl⟩⟩
          · cases he
        · cases h
  · unfold Grammar.generateWith at h
    split at h
    · cases h
    · cases h; exact ⟨_, rfl, .inl (.tail _ (.tail _ (.head _)))⟩
    · split at h
      · rename_i p ps hp
        split at h
        · rcases traverse_errors _ _ _ _ _ _ h with rfl | rfl
          · exact ⟨_, rfl, .inl (.head _)⟩
          · exact ⟨_, rfl, .inl (.tail _ (.head _))⟩
        · cases h
          exact ⟨_, rfl, .inr ⟨p, by simp [hp], rfl⟩⟩
      · cases h; exact ⟨_, rfl, .inl (.tail _ (.tail _ (.tail _ (.head _))))⟩

/-- How the printed errors of each kind begin. -/
theorem returned_begins {dbg : Str → Str} {e : FullError} (h : Returned dbg e) :
    match e with
    | .parseError m => m.take 2 = ['P', 'a']
    | .validationError m => m.take 2 ∈ [['G', 'r'], ['U', 'n']]
    | .generateError m => m.take 2 ∈ [['P', 'r'], ['C', 'o'], ['C', 'a'], ['F', 'a'], ['T', 'e']] := by
  have hm : ∀ i k, (E.message dbg i k).take 2 = ['P', 'a'] := fun i k => by simp [E.message, E.messageHead]
  have hv : ∀ m, (m = "Grammar must have at least one production".toList ∨ ∃ n, m = "Undefined nonterminals: <".toList ++ n ++ ">".toList) →
      m.take 2 ∈ [['G', 'r'], ['U', 'n']] := by
    rintro m (rfl | ⟨n, rfl⟩) <;> simp
  cases h with
  | grammar h => obtain ⟨i, k, rfl⟩ := toResult_message h; exact hm i k
  | detected h =>
    unfold E.fromStr at h
    split at h <;> (obtain ⟨i, k, rfl⟩ := toResult_message h; exact hm i k)
  | bnfOnly h => obtain ⟨i, k, rfl⟩ := toResult_message h; exact hm i k
  | term h => obtain ⟨i, k, rfl⟩ := toResult_message h; exact hm i k
  | expression h => obtain ⟨i, k, rfl⟩ := toResult_message h; exact hm i k
  | production h => obtain ⟨i, k, rfl⟩ := toResult_message h; exact hm i k
  | validated h =>
    obtain ⟨m, he, hm'⟩ := (C128_kinds _ _).1 _ (.inl h)
    cases he
    exact hv _ hm'
  | built h =>
    obtain ⟨m, he, hm'⟩ := (C128_kinds _ _).1 _ (.inr h)
    cases he
    exact hv _ hm'
  | generated h =>
    obtain ⟨m, he, hm'⟩ := (C128_kinds _ id).2 _ _ _ _ _ _ h
    cases he
    rcases hm' with hm' | ⟨p, -, rfl⟩
    · simp only [List.mem_cons, List.not_mem_nil, or_false] at hm'
      rcases hm' with rfl | rfl | rfl | rfl <;> simp
    · simp

/-- C128: although `Display` leaves out the name of the variant, it determines the errors that functions of the crate return. -/
theorem C128_display {dbg : Str → Str} {e e' : FullError} (h : Returned dbg e) (h' : Returned dbg e') (he : e.display = e'.display) : e = e' := by
  have h1 := returned_begins h
  have h2 := returned_begins h'
  cases e <;> cases e' <;> simp only [FullError.display] at he <;> subst he <;> first | rfl | skip
  all_goals simp only at h1 h2
  all_goals first | rw [h1] at h2 | rw [h2] at h1 | skip
  all_goals simp at h1 h2
  · rcases h1 with h1 | h1 | h1 | h1 | h1 <;> rw [h1] at h2 <;> simp at h2
  · rcases h1 with h1 | h1 <;> rw [h1] at h2 <;> simp at h2

/-- There are errors of all three kinds: a text that is no grammar, a grammar with an undefined name and one that derives nothing. -/
example (dbg : Str → Str) : Returned dbg (.parseError (E.message dbg (chars! "'x") .char)) ∧
    Returned dbg (.validationError (chars! "Undefined nonterminals: <b>")) ∧
    Returned dbg (.generateError (chars! "Can't generate, first rule in grammar doesn't lead to a terminal state")) :=
  ⟨.term (s := chars! "'x") rfl,
   .validated (ord := id) (g := ⟨[⟨.nonterminal ['a'], [⟨[.nonterminal ['b']]⟩]⟩]⟩) (by rfl),
   .generated (σ := Unit) (S := ⟨fun _ _ _ _ => (.none, ())⟩) (f := fun _ _ _ => (true, ())) (fuel := 0) (st := ()) (st' := ())
     (g := ⟨[⟨.nonterminal ['a'], [⟨[.nonterminal ['a']]⟩]⟩]⟩) (by rfl)⟩

/-- C128: for errors made by hand (the variants are public) `Display` does not tell them apart; the derived `Debug` does, in both its forms. -/
theorem C128_debug (plain : Char → Bool) :
    (∃ e e' : FullError, e ≠ e' ∧ e.display = e'.display) ∧
    (∀ e : FullError, e.debug plain = debugError plain e ∧ e.debugPretty plain = prettyError plain e) ∧
    ∀ e e' : FullError, (e.debug plain = e'.debug plain → e = e') ∧ (e.debugPretty plain = e'.debugPretty plain → e = e') := by
  have h : ∀ e : FullError, e.debug plain = debugError plain e ∧ e.debugPretty plain = prettyError plain e := by
    intro e
    refine ⟨by cases e <;> simp [FullError.debug, FullError.debugVal, DVal.compact, debugError, strDebug_eq], ?_⟩
    rw [FullError.debugPretty, pretty_at]
    · cases e <;> simp [FullError.debugVal, DVal.at, prettyError, strDebug_eq, newLine, List.replicate]
    · cases e <;> simp [FullError.debugVal, DVal.Clean]
  refine ⟨⟨.parseError [], .generateError [], by simp, rfl⟩, h, fun e e' => ⟨fun he => ?_, fun he => ?_⟩⟩
  · rw [(h e).1, (h e').1] at he
    cases e <;> cases e' <;> simp [debugError] at he <;> (have := (quoted_delim plain).inj he; rw [this])
  · rw [(h e).2, (h e').2] at he
    cases e <;> cases e' <;> simp [prettyError] at he <;> (have := (quoted_delim plain).inj he; rw [this])

/-- C128: the message about an undefined name repeats the name as it is, so that it can have several lines, in contrast to messages about texts
(`C118_message`); the `Debug` text of an error is always one line. -/
theorem C128_lines (plain : Char → Bool) :
    (∃ s g m, E.parseFrom (strDebug plain) BNF s = some (.ok g) ∧ g.validate id = .error (.validationError m) ∧ '\n' ∈ m) ∧
    ∀ e : FullError, '\n' ∉ e.debug plain := by
  refine ⟨⟨chars! "<a> ::= <b\nc>", ⟨[⟨.nonterminal ['a'], [⟨[.nonterminal (chars! "b\nc")]⟩]⟩]⟩, chars! "Undefined nonterminals: <b\nc>", by rfl, by rfl, by decide⟩,
    fun e h => ?_⟩
  rw [((C128_debug plain).2.1 e).1] at h
  have : ∀ s, '\n' ∉ quotedDebug plain s := fun s hs => by
    rcases shown_quoted plain s _ hs with h | h
    · exact absurd h.1 (by decide)
    · exact h.2 rfl
  cases e <;> simp [debugError, this] at h

end Bnf.Props
