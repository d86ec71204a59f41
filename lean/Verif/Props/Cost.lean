import Verif.Chars
import Verif.Proofs.CostLocal
import Verif.Proofs.CostExact
import Verif.Props.Text

/-!
# Properties C76 and C77: the work for reading a grammar text, and how deeply it recurses
-/

set_option autoImplicit false

namespace Bnf.Props
open Bnf Spec

/-! ## C76 -/

/-- C76: the parsers whose work is counted are those of `Model.Text`. -/
theorem C76_same_results (F : Format) (n : Nat) :
    (Timed.parsedTerm F n).run = parsedTerm F n ∧ (Timed.parsedGrammarComplete F n).run = parsedGrammarComplete F n ∧
    (Timed.allConsuming (Timed.plainGrammar F n)).run = Nom.allConsuming (plainGrammar F n) :=
  ⟨Timed.parsedTerm_run F n, Timed.parsedGrammarComplete_run F n, by simp only [Timed.allConsuming, Timed.plainGrammar_run]⟩

theorem supported_separator {F : Format} (hF : Supported F) : F.productionSeparator.length ≤ 3 := by
  cases hF <;> simp [BNF, ABNF]

/-- C76: `parse_from` looks at no more than `137 · n + 141` characters of a text of `n` characters, whether it is accepted or not: nested
groups are not read several times, and the two attempts are not multiplied. -/
theorem C76_linear {F : Format} (hF : Supported F) (s : Str) : (Timed.grammarComplete F).cost s ≤ 137 * s.length + 141 :=
  Timed.grammarComplete_cost hF.regular (supported_separator hF) s

/-- C76: the same for `from_str`, with the choice of the format. -/
theorem C76_from_str {f : Char → Bool} (hf : AlphabeticTable f) (s : Str) : Timed.fromStrCost f s ≤ 140 * s.length + 144 := by
  have h1 : Timed.isFormatCost s ≤ 3 * s.length + 3 := by
    have := (Timed.lin_bind Timed.lin_ws fun _ => Timed.lin_char '<').all s
    have h : Timed.isFormatCost s = (Timed.bind Timed.ws fun _ => Timed.char '<').cost s := rfl
    omega
  have h2 := C76_linear .bnf s
  have h3 := C76_linear (.abnf hf) s
  unfold Timed.fromStrCost
  split <;> omega

/-- C76: the count is not too low: if the text is accepted, all its characters and its end are looked at. -/
theorem C76_all_read (F : Format) {s : Str} {g : Grammar} (h : Grammar.parseFrom F s = some (.ok g)) : s.length < (Timed.grammarComplete F).cost s := by
  obtain ⟨r, hr⟩ := toResult_ok.mp h
  have := Timed.grammarComplete_cov F (show (Timed.grammarComplete F).run s = .ok r g from hr)
  obtain rfl : r = [] := by
    simp only [grammarComplete, grammarCompleteFuel] at hr
    have hx : ∀ {r v}, ((parsedGrammarComplete F (s.length + 1) s).andThen fun s parsed =>
      match normalizeParsedGrammar parsed with
      | none => .fuel
      | some g => .ok s g) = .ok r v → r = [] := by
      intro r v h
      obtain ⟨r', v', h1, h2⟩ := Res.andThen_ok.mp h
      obtain ⟨rfl, _⟩ := allConsuming_ok.mp h1
      split at h2
      · cases h2
      · injection h2 with h2; exact h2.symm
    split at hr
    · exact hx hr
    · split at hr
      · rename_i h1; injection hr with hr; subst hr; exact (allConsuming_ok.mp h1).1
      · exact hx hr
      · cases hr
  simpa using this

/-- A text that agrees with `s` in all that is looked at is treated like `s`. -/
theorem looked_at {F : Format} (hF : F.Regular) {s s' : Str} {n : Nat} (hn : (Timed.grammarComplete F).cost s ≤ n) (h : s.take n = s'.take n) :
    ((∃ e, Grammar.parseFrom F s = some (.error e)) → ∃ e, Grammar.parseFrom F s' = some (.error e)) ∧
    ∀ g, Grammar.parseFrom F s = some (.ok g) → s' = s := by
  have hl := Timed.loc_grammarComplete F s s' (Timed.Agree.mono h hn)
  have hl : Timed.Same s s' _ (grammarComplete F s) (grammarComplete F s') := hl
  refine ⟨fun ⟨e, he⟩ => ?_, fun g hg => ?_⟩
  · have n1 := grammarComplete_no_fuel hF s
    have n2 := grammarComplete_no_fuel hF s'
    unfold Grammar.parseFrom at he ⊢
    generalize grammarComplete F s = x at hl he n1
    generalize grammarComplete F s' = y at hl n2
    cases hl with
    | fuelL => exact absurd rfl n1
    | fuelR => exact absurd rfl n2
    | err => exact ⟨e, he⟩
    | ok => simp [Res.toResult] at he
  · have hr := C76_all_read F hg
    rw [List.take_of_length_le (by omega)] at h
    have := congrArg List.length h
    rw [List.length_take] at this
    rw [h, List.take_of_length_le (by omega)]

/-- C76: the count is not too low for rejected texts either: the characters counted determine the result.  A text that agrees with a rejected one in
as many characters as are counted (and ends where that one does, if the end is among them) is rejected, too; and only the text itself agrees with an
accepted one. -/
theorem C76_looked_at {F : Format} (hF : Supported F) {s s' : Str}
    (h : s.take ((Timed.grammarComplete F).cost s) = s'.take ((Timed.grammarComplete F).cost s)) :
    ((∃ e, Grammar.parseFrom F s = some (.error e)) → ∃ e, Grammar.parseFrom F s' = some (.error e)) ∧
    ∀ g, Grammar.parseFrom F s = some (.ok g) → s' = s := looked_at hF.regular (Nat.le_refl _) h

/-- C76: the same for `from_str`; moreover the same format is chosen. -/
theorem C76_looked_at_from_str {f : Char → Bool} (hf : AlphabeticTable f) {s s' : Str}
    (h : s.take (Timed.fromStrCost f s) = s'.take (Timed.fromStrCost f s)) :
    isFormatStandardBnf s' = isFormatStandardBnf s ∧
    ((∃ e, Grammar.fromStr f s = some (.error e)) → ∃ e, Grammar.fromStr f s' = some (.error e)) ∧
    ∀ g, Grammar.fromStr f s = some (.ok g) → s' = s := by
  have hb := Timed.agree_format (Timed.Agree.mono h (Nat.le_add_right _ _))
  refine ⟨hb, ?_⟩
  unfold Timed.fromStrCost at h
  unfold Grammar.fromStr
  rw [hb]
  cases hs : isFormatStandardBnf s with
  | true =>
    rw [hs] at h
    exact looked_at (Supported.regular .bnf) (Nat.le_add_left _ _) h
  | false =>
    rw [hs] at h
    exact looked_at (Supported.regular (.abnf hf)) (Nat.le_add_left _ _) h

/-- C76: while naming the groups and optionals, `normalize_parsed_grammar` tries no more names than there are characters in the text, even if
the text declares such names itself (`counter` grows by one with every name tried). -/
theorem C76_names {F : Format} {pg : ParsedGrammar} {s : Str} (ht : GrammarText F pg s) {out st}
    (h : lowerProds pg ⟨pg.map (·.lhs), 0, []⟩ = some (out, st)) : st.counter ≤ pg.length + brackets pg ∧ pg.length + brackets pg ≤ s.length :=
  ⟨normalize_tries h, text_brackets ht⟩

/-- The characters looked at for three texts, the last of which is rejected (an unclosed group). -/
example : (Timed.grammarComplete BNF).cost ['<', 'a', '>', ':', ':', '=', '\'', 'x', '\''] = 89 := by rfl
example : (Timed.grammarComplete BNF).cost ['<', 'a', '>', ':', ':', '=', '(', '\'', 'x', '\'', ')'] = 67 := by rfl
example : (Timed.grammarComplete BNF).cost ['<', 'a', '>', ':', ':', '=', '(', '\'', 'x', '\''] = 52 := by rfl

/-- A bad beginning is enough: only 7 characters of this text are counted, so whatever follows them, the text is rejected. -/
theorem bad_beginning : (Timed.grammarComplete BNF).cost ['(', 'a', 'b', 'c', 'd', 'e', 'f', 'g'] = 7 := by rfl
example (rest : Str) : ∃ e, Grammar.parseFrom BNF ('(' :: 'a' :: 'b' :: 'c' :: 'd' :: 'e' :: 'f' :: rest) = some (.error e) :=
  (C76_looked_at .bnf (s := ['(', 'a', 'b', 'c', 'd', 'e', 'f', 'g']) (by rw [bad_beginning]; simp)).1 ⟨.parseError, by rfl⟩

/-- With the detection of the format, which looks at the first character three times (white space, `;`, `<`). -/
example : Timed.fromStrCost (fun _ => false) ['<', 'a', '>', ':', ':', '=', '\'', 'x', '\''] = 89 + 3 := by rfl

/-- `__anon0` is declared: two names are tried for one group. -/
example : ∃ out st, lowerProds [⟨anon0, [[.group [[.simple (.terminal ['x'])]]]]⟩] ⟨[anon0], 0, []⟩ = some (out, st) ∧ st.counter = 2 := by
  refine ⟨_, _, rfl, rfl⟩

/-! ## C77 -/

/-- C77: calls of `parsed_term` are nested no deeper than one more than the number of opening brackets in the text. -/
theorem C77_depth (F : Format) (s : Str) : (Timed.grammarComplete F).depth s ≤ opens s + 1 := Timed.grammarComplete_depth F s

/-- C77: and they do get that deep, before anything is known about the rest of the text: there is no limit on nesting, so the stack needed
grows with the input, and a long enough text overflows it. -/
theorem C77_no_limit (k : Nat) (rest : Str) : k + 2 ≤
    (Timed.grammarComplete BNF).depth (['<', 's', '>', ':', ':', '='] ++ (List.replicate (k + 1) '(' ++ rest)) := Timed.nested_depth k rest

/-- C77: the same holds for `Grammar::from_str`, which chooses the format by itself: the depth is bounded by the number of opening brackets,
and it is not limited otherwise. -/
theorem C77_from_str (f : Char → Bool) : (∀ s, Timed.fromStrDepth f s ≤ opens s + 1) ∧
    ∀ k rest, k + 2 ≤ Timed.fromStrDepth f (['<', 's', '>', ':', ':', '='] ++ (List.replicate (k + 1) '(' ++ rest)) := by
  constructor
  · intro s
    unfold Timed.fromStrDepth
    split <;> exact C77_depth _ s
  · intro k rest
    have hf : isFormatStandardBnf (['<', 's', '>', ':', ':', '='] ++ (List.replicate (k + 1) '(' ++ rest)) = true := by
      have : (whitespacePlusComments (['<', 's', '>', ':', ':', '='] ++ (List.replicate (k + 1) '(' ++ rest))) =
          .ok (['<', 's', '>', ':', ':', '='] ++ (List.replicate (k + 1) '(' ++ rest)) () := by
        have h : Timed.ws.run (Timed.nestedText (k + 1) rest) = .ok (Timed.nestedText (k + 1) rest) () := by
          have hskip : skipM false (Timed.nestedText (k + 1) rest) = Timed.nestedText (k + 1) rest :=
            skipM_of_tight (tight_cons (by decide) (by decide))
          rw [Timed.ws_ok, hskip]
        exact h
      unfold isFormatStandardBnf
      rw [this]
      rfl
    unfold Timed.fromStrDepth
    rw [if_pos hf]
    exact C77_no_limit k rest

/-- C77: the bound is reached by accepted texts of every depth. -/
theorem C77_exact (k : Nat) : ∃ s g, Grammar.parseFrom BNF s = some (.ok g) ∧ opens s = k + 1 ∧ s.length = 2 * (k + 1) + 9 ∧
    (Timed.grammarComplete BNF).depth s = k + 2 := by
  have h := Timed.nested_text (k + 1)
  obtain ⟨g, hg⟩ := normalize_total [⟨['s'], [[Timed.nestedTerm (k + 1)]]⟩]
  have ho : opens (Timed.nestedText (k + 1) (['\'', 'x', '\''] ++ List.replicate (k + 1) ')')) = k + 1 := by
    have h1 : ∀ n, opens (List.replicate n '(') = n := fun n => by simp [opens, List.countP_replicate]
    have h2 : ∀ n, opens (List.replicate n ')') = 0 := fun n => by simp [opens, List.countP_replicate]
    have h3 : ∀ a b, opens (a ++ b) = opens a + opens b := fun a b => List.countP_append
    rw [Timed.nestedText, h3, h3, h3, h1, h2]
    have : opens ['<', 's', '>', ':', ':', '='] = 0 := by decide
    have : opens ['\'', 'x', '\''] = 0 := by decide
    omega
  refine ⟨_, g, (C23_accepted_texts .bnf _ _).mpr ⟨_, h, hg⟩, ho, ?_, ?_⟩
  · simp [Timed.nestedText]; omega
  · have h1 := C77_depth BNF (Timed.nestedText (k + 1) (['\'', 'x', '\''] ++ List.replicate (k + 1) ')'))
    have h2 := Timed.nested_depth k (['\'', 'x', '\''] ++ List.replicate (k + 1) ')')
    omega

/-- C77: for an accepted text, wherever the brackets are: `k + 1` groups and optionals inside each other need `k + 2` nested calls. -/
theorem C77_nested {F : Format} (hF : Supported F) {pg s} (h : GrammarText F pg s) {p k} (hp : p ∈ pg) (hk : Nested (k + 1) (.alts p.rhs)) :
    k + 2 ≤ (Timed.grammarComplete F).depth s :=
  Timed.grammar_nested hF.regular h hp hk

/-- `<a>::='x'|'y'[('z')]`: two brackets inside each other, in the second term of the second alternative. -/
example : 3 ≤ (Timed.grammarComplete BNF).depth ['<', 'a', '>', ':', ':', '=', '\'', 'x', '\'', '|', '\'', 'y', '\'', '[', '(', '\'', 'z', '\'', ')', ']'] := by
  have h : parsedGrammarComplete BNF 50 ['<', 'a', '>', ':', ':', '=', '\'', 'x', '\'', '|', '\'', 'y', '\'', '[', '(', '\'', 'z', '\'', ')', ']'] = .ok []
    [⟨['a'], [[.simple (.terminal ['x'])], [.simple (.terminal ['y']), .optional [[.group [[.simple (.terminal ['z'])]]]]]]⟩] := by rfl
  refine C77_nested .bnf (parsedGrammarComplete_sound BNF_regular.named h) (List.mem_singleton.mpr rfl) (k := 1) ?_
  exact .alts (List.mem_cons_of_mem _ (List.mem_singleton.mpr rfl)) (.terms (List.mem_cons_of_mem _ (List.mem_singleton.mpr rfl))
    (.optional (.alts (List.mem_singleton.mpr rfl) (.terms (List.mem_singleton.mpr rfl) (.group .none)))))

/-- C77: and no more: if nowhere in an accepted text more than `k` groups and optionals are inside each other, then at most `k + 1` calls are nested. -/
theorem C77_not_deeper {F : Format} (hF : Supported F) {pg s} (h : GrammarText F pg s) {k}
    (hk : ∀ p ∈ pg, ∀ m, Nested m (.alts p.rhs) → m ≤ k) : (Timed.grammarComplete F).depth s ≤ k + 1 :=
  Timed.grammar_low hF.regular h hk

/-- C77: so for an accepted text with brackets the depth is exactly one more than the brackets are nested, however many there are. -/
theorem C77_as_deep {F : Format} (hF : Supported F) {pg s} (h : GrammarText F pg s) {k}
    (hm : ∃ p ∈ pg, Nested (k + 1) (.alts p.rhs)) (hk : ∀ p ∈ pg, ∀ m, Nested m (.alts p.rhs) → m ≤ k + 1) :
    (Timed.grammarComplete F).depth s = k + 2 := by
  obtain ⟨p, hp, hn⟩ := hm
  exact Nat.le_antisymm (C77_not_deeper hF h hk) (C77_nested hF h hp hn)

/-- `<a>::=('x')['y']('z')`: three brackets, but none inside another, so only two calls are nested. -/
example : (Timed.grammarComplete BNF).depth (chars! "<a>::=('x')['y']('z')") = 2 := by
  have h : parsedGrammarComplete BNF 50 (chars! "<a>::=('x')['y']('z')") = .ok []
    [⟨['a'], [[.group [[.simple (.terminal ['x'])]], .optional [[.simple (.terminal ['y'])]], .group [[.simple (.terminal ['z'])]]]]⟩] := by rfl
  have leaf : ∀ {m c}, Nested m (.alts [[.simple (.terminal [c])]]) → m = 0 := by
    intro m c h
    cases h with
    | none => rfl
    | alts he h =>
      rcases List.mem_singleton.mp he with rfl
      cases h with
      | none => rfl
      | terms ht h =>
        rcases List.mem_singleton.mp ht with rfl
        cases h
        rfl
  refine C77_as_deep .bnf (parsedGrammarComplete_sound BNF_regular.named h) (k := 0)
    ⟨_, List.mem_singleton.mpr rfl, .alts (List.mem_singleton.mpr rfl) (.terms (List.mem_cons_self ..) (.group .none))⟩ ?_
  intro p hp m hm
  rcases List.mem_singleton.mp hp with rfl
  cases hm with
  | none => omega
  | alts he hm =>
    rcases List.mem_singleton.mp he with rfl
    cases hm with
    | none => omega
    | terms ht hm =>
      simp only [List.mem_cons, List.not_mem_nil, or_false] at ht
      rcases ht with rfl | rfl | rfl
      · cases hm with
        | none => omega
        | group hm => have := leaf hm; omega
      · cases hm with
        | none => omega
        | optional hm => have := leaf hm; omega
      · cases hm with
        | none => omega
        | group hm => have := leaf hm; omega

end Bnf.Props
