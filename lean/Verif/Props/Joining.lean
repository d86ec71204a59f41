import Verif.Proofs.Joining
import Verif.Props.CustomFormat
import Verif.Chars

/-! # Property C123: texts one after the other, and the optional `;` at the end of a production -/

set_option autoImplicit false

namespace Bnf.Props
open Bnf Spec

variable {F : Format}

/-- C123: putting a text that is accepted after another one, on a new line, gives a text that says both; the rest of the line before may be blank or
a comment. -/
theorem C123_lines (hF : WellChosen F) {s t s' pg pg'} {c : Char} (h : GrammarText F pg s) (ht : LineEnd F t) (hc : IsNewline c)
    (h' : GrammarText F pg' s') : GrammarText F (pg ++ pg') (s ++ t ++ c :: s') :=
  text_lines hF h ht hc h'

/-- C123: in particular it is accepted. -/
theorem C123_accepted (hF : WellChosen F) {s t s' g g'} {c : Char} (h : Grammar.parseFrom F s = some (.ok g)) (ht : LineEnd F t) (hc : IsNewline c)
    (h' : Grammar.parseFrom F s' = some (.ok g')) : ∃ g'', Grammar.parseFrom F (s ++ t ++ c :: s') = some (.ok g'') := by
  obtain ⟨pg, h1, _⟩ := (C122_exact hF).mp h
  obtain ⟨pg', h1', _⟩ := (C122_exact hF).mp h'
  obtain ⟨g'', hg⟩ := normalize_total (pg ++ pg')
  exact ⟨g'', (C122_exact hF).mpr ⟨_, C123_lines hF h1 ht hc h1', hg⟩⟩

/-- C123: if there are no brackets in the texts, the grammar has the productions of the one and then those of the other. -/
theorem C123_productions (hF : WellChosen F) {s t s' g g'} {c : Char} (h : Grammar.parseFrom F s = some (.ok g)) (ht : LineEnd F t) (hc : IsNewline c)
    (h' : Grammar.parseFrom F s' = some (.ok g')) (hb : ∀ d ∈ s ++ s', d ≠ '(' ∧ d ≠ '[') :
    Grammar.parseFrom F (s ++ t ++ c :: s') = some (.ok ⟨g.productions ++ g'.productions⟩) := by
  obtain ⟨pg, h1, h2⟩ := (C122_exact hF).mp h
  obtain ⟨pg', h1', h2'⟩ := (C122_exact hF).mp h'
  obtain ⟨ps, rfl, hp⟩ := text_flat h1 (fun h => (hb _ (List.mem_append_left _ h)).1 rfl) (fun h => (hb _ (List.mem_append_left _ h)).2 rfl)
  obtain ⟨ps', rfl, hp'⟩ := text_flat h1' (fun h => (hb _ (List.mem_append_right _ h)).1 rfl) (fun h => (hb _ (List.mem_append_right _ h)).2 rfl)
  rw [normalize_plain hp] at h2
  rw [normalize_plain hp'] at h2'
  cases h2
  cases h2'
  refine (C122_exact hF).mpr ⟨_, C123_lines hF h1 ht hc h1', ?_⟩
  rw [← toParsed_append]
  refine normalize_plain fun p hm => ?_
  rcases List.mem_append.mp hm with hm | hm
  · exact hp p hm
  · exact hp' p hm

/-- C123: any number of texts without brackets. -/
theorem C123_many (hF : WellChosen F) {c : Char} (hc : IsNewline c) {ss : List Str} {gs : List Grammar}
    (h : List.Forall₂ (fun s g => Grammar.parseFrom F s = some (.ok g)) ss gs) (hb : ∀ s ∈ ss, ∀ d ∈ s, d ≠ '(' ∧ d ≠ '[') (hne : ss ≠ []) :
    Grammar.parseFrom F ([c].intercalate ss) = some (.ok ⟨gs.flatMap Grammar.productions⟩) := by
  suffices key : Grammar.parseFrom F ([c].intercalate ss) = some (.ok ⟨gs.flatMap Grammar.productions⟩) ∧
      ∀ d ∈ [c].intercalate ss, d ≠ '(' ∧ d ≠ '[' from key.1
  induction h with
  | nil => exact absurd rfl hne
  | @cons s g ss gs h1 h2 ih =>
    cases h2 with
    | nil =>
      refine ⟨?_, ?_⟩
      · simpa [List.intercalate] using h1
      · simpa [List.intercalate] using hb s (by simp)
    | @cons s' g' ss gs h2 h3 =>
      obtain ⟨i1, i2⟩ := ih (fun u hu => hb u (List.mem_cons_of_mem _ hu)) (by simp)
      have he : [c].intercalate (s :: s' :: ss) = s ++ [] ++ c :: [c].intercalate (s' :: ss) := by
        simp [List.intercalate, List.intersperse]
      rw [he]
      have hs : ∀ d ∈ s, d ≠ '(' ∧ d ≠ '[' := hb s (by simp)
      refine ⟨?_, ?_⟩
      · have := C123_productions hF h1 .nil hc i1 fun d hd => by
          rcases List.mem_append.mp hd with hd | hd
          · exact hs d hd
          · exact i2 d hd
        rw [this]
        simp
      · intro d hd
        simp only [List.append_nil, List.mem_append, List.mem_cons] at hd
        rcases hd with hd | rfl | hd
        · exact hs d hd
        · rcases hc with rfl | rfl <;> decide
        · exact i2 d hd

/-- C123: with brackets, too, what the first text says about its names stays as it is, if the second text declares none of the names that are
declared or used in the first. -/
theorem C123_meaning (hF : Supported F) {s t s' g pg pg' g''} {c : Char} (h : GrammarText F pg s) (ht : LineEnd F t) (hc : IsNewline c)
    (h' : GrammarText F pg' s') (hg : Grammar.parseFrom F s = some (.ok g))
    (hg'' : Grammar.parseFrom F (s ++ t ++ c :: s') = some (.ok g''))
    (hd : ∀ n, UsedIn n pg ∨ DeclaredIn n pg → ¬ DeclaredIn n pg')
    (hyg : ∀ n, UsedIn n pg ∨ UsedIn n pg' → DeclaredIn n pg ∨ DeclaredIn n pg' ∨ ∀ k, n ≠ anonName k)
    {n} (hn : DeclaredIn n pg) (w : Str) : Derives g'' (.nonterminal n) w ↔ Derives g (.nonterminal n) w := by
  have hw : WellChosen F := by
    cases hF with
    | bnf => exact BNF_wellChosen
    | abnf hf => exact ABNF_wellChosen hf
  have hj := C123_lines hw h ht hc h'
  have hdec : ∀ m, DeclaredIn m (pg ++ pg') ↔ DeclaredIn m pg ∨ DeclaredIn m pg' := by
    intro m
    simp only [DeclaredIn, List.mem_append]
    constructor
    · rintro ⟨p, hp | hp, he⟩
      · exact .inl ⟨p, hp, he⟩
      · exact .inr ⟨p, hp, he⟩
    · rintro (⟨p, hp, he⟩ | ⟨p, hp, he⟩)
      · exact ⟨p, .inl hp, he⟩
      · exact ⟨p, .inr hp, he⟩
  have huse : ∀ m, UsedIn m (pg ++ pg') → UsedIn m pg ∨ UsedIn m pg' := by
    rintro m ⟨p, hp, hw⟩
    rcases List.mem_append.mp hp with hp | hp
    · exact .inl ⟨p, hp, hw⟩
    · exact .inr ⟨p, hp, hw⟩
  rw [C29_language hF hj hg'' (fun m hm => by rw [hdec, or_assoc]; exact hyg m (huse m hm)) ((hdec n).mpr (.inl hn)),
    C29_language hF h hg (fun m hm => by
      rcases hyg m (.inl hm) with h | h | h
      · exact .inl h
      · exact absurd h (hd m (.inl hm))
      · exact .inr h) hn]
  refine ⟨fun hm => means_of_join (fun m hm => hd m (.inl hm)) hm fun m hm => ?_, means_left⟩
  cases hm
  exact hd _ (.inr hn)

/-- C123: blanks and a comment at the end of the last line say nothing, with or without brackets. -/
theorem C123_trailing (hF : WellChosen F) {s t g} (h : Grammar.parseFrom F s = some (.ok g)) (ht : LineEnd F t) :
    Grammar.parseFrom F (s ++ t) = some (.ok g) := by
  obtain ⟨pg, h1, h2⟩ := (C122_exact hF).mp h
  exact (C122_exact hF).mpr ⟨pg, text_trailing hF h1 ht, h2⟩

/-- C123: the `;` after a production in BNF (README) is the beginning of a comment: whatever follows on the line is lost, also further productions. -/
theorem C123_semicolon {f : Char → Bool} {s t g} (h : Grammar.parseFrom BNF s = some (.ok g)) (ht : OneLine t) :
    Grammar.fromStr f (s ++ ';' :: t) = some (.ok g) :=
  fromStr_of_BNF (C123_trailing BNF_wellChosen h (.semicolon rfl ht))

/-- C123: after a space the same holds for every text that `from_str` accepts. -/
theorem C123_spaced_semicolon {f : Char → Bool} (hf : AlphabeticTable f) {s t g} (h : Grammar.fromStr f s = some (.ok g)) (ht : OneLine t) :
    Grammar.fromStr f (s ++ ' ' :: ';' :: t) = some (.ok g) := by
  rw [fromStr_eq] at h
  split at h
  · exact fromStr_of_BNF (C123_trailing BNF_wellChosen h (.spaced (by decide) (by unfold IsNewline; decide) ht))
  · exact fromStr_of_ABNF hf (C123_trailing (ABNF_wellChosen hf) h (.spaced (by decide) (by unfold IsNewline; decide) ht))

/-- C123: in ABNF the `;` directly after a name is part of the name, so the README's remark does not hold there: `a = b;` refers to `b;`. -/
theorem C123_abnf_name {f : Char → Bool} (hf : AlphabeticTable f) {u v : Str} (hu : NameIn (ABNF f) u) (hv : NameIn (ABNF f) v) :
    Grammar.fromStr f (u ++ chars! " = " ++ v ++ [';']) =
      some (.ok ⟨[⟨.nonterminal u, [⟨[.nonterminal (v ++ [';'])]⟩]⟩]⟩) := by
  have hl : NameIn (ABNF f) (v ++ [';']) := by
    obtain ⟨⟨c, cs, rfl, hc⟩, h⟩ := hv
    refine ⟨⟨c, cs ++ [';'], rfl, hc⟩, fun d hd => ?_⟩
    rcases List.mem_append.mp hd with hd | hd
    · exact h d hd
    · rw [List.mem_singleton.mp hd]; unfold NameStop; decide
  have hn : ∀ {w : Str} {r}, NameIn (ABNF f) w → (r = [] ∨ ∃ c cs, r = c :: cs ∧ NameStop c) → Name (ABNF f) w (w ++ r) r :=
    fun hw hr => ⟨rfl, hw.1, hw.2, hr⟩
  refine fromStr_of_ABNF hf ((C122_exact (ABNF_wellChosen hf)).mpr
    ⟨toParsed [⟨.nonterminal u, [⟨[.nonterminal (v ++ [';'])]⟩]⟩], ⟨_, .nil, .one ⟨v ++ [';'], ?_, ?_⟩⟩, normalize_plain (by simp)⟩)
  · refine ⟨chars! " = " ++ v ++ [';'], ' ' :: (v ++ [';']), ' ' :: (v ++ [';']), ?_, .space (by decide) .nil, .inl rfl, .space (by decide) .nil⟩
    rw [List.append_assoc u, List.append_assoc u]
    exact hn hu (.inr ⟨' ', _, rfl, .inl (by decide)⟩)
  · refine .lastAlt (.one (.nonterminal (s' := []) ?_ .nil))
    have := hn hl (.inl rfl)
    simpa using this

/-! ### Cases -/

/-- Two productions, the first closed by `;`. -/
example : Grammar.parseFrom BNF (chars! "<a> ::= 'x' <b>;" ++ '\n' :: chars! "<b> ::= 'y'") =
    some (.ok ⟨[⟨.nonterminal ['a'], [⟨[.terminal ['x'], .nonterminal ['b']]⟩]⟩] ++ [⟨.nonterminal ['b'], [⟨[.terminal ['y']]⟩]⟩]⟩) :=
  C123_productions (s := chars! "<a> ::= 'x' <b>") (t := [';']) BNF_wellChosen (by rfl) (.semicolon rfl (by intro d h; cases h)) (.inr rfl)
    (g := ⟨[⟨.nonterminal ['a'], [⟨[.terminal ['x'], .nonterminal ['b']]⟩]⟩]⟩) (g' := ⟨[⟨.nonterminal ['b'], [⟨[.terminal ['y']]⟩]⟩]⟩)
    (by rfl) (by decide)

/-- C123: two productions on one line, separated by `;`: the second is lost without an error. -/
theorem C123_lost_witness (f : Char → Bool) : Grammar.fromStr f (chars! "<a> ::= <b>; <b> ::= 'y'") =
    some (.ok ⟨[⟨.nonterminal ['a'], [⟨[.nonterminal ['b']]⟩]⟩]⟩) :=
  C123_semicolon (s := chars! "<a> ::= <b>") (t := chars! " <b> ::= 'y'") (by rfl)
    (by have : ∀ d ∈ chars! " <b> ::= 'y'", d ≠ '\r' ∧ d ≠ '\n' := by decide
        exact fun d hd h => h.elim (this d hd).1 (this d hd).2)

/-- Whereas without the `;` both are read. -/
example : Grammar.parseFrom BNF (chars! "<a> ::= <b> <b> ::= 'y'") =
    some (.ok ⟨[⟨.nonterminal ['a'], [⟨[.nonterminal ['b']]⟩]⟩, ⟨.nonterminal ['b'], [⟨[.terminal ['y']]⟩]⟩]⟩) := by rfl

/-- A `;` in quotes or in a delimited name is text. -/
example : Grammar.parseFrom BNF (chars! "<a;b> ::= ';'") = some (.ok ⟨[⟨.nonterminal ['a', ';', 'b'], [⟨[.terminal [';']]⟩]⟩]⟩) := by rfl

/-- `a = b;` -/
example : Grammar.fromStr Char.isAlpha (chars! "a = b;") = some (.ok ⟨[⟨.nonterminal ['a'], [⟨[.nonterminal ['b', ';']]⟩]⟩]⟩) :=
  C123_abnf_name table_example (u := ['a']) (v := ['b'])
    ⟨⟨'a', [], rfl, by decide⟩, fun c hc => by rw [List.mem_singleton.mp hc]; unfold NameStop; decide⟩
    ⟨⟨'b', [], rfl, by decide⟩, fun c hc => by rw [List.mem_singleton.mp hc]; unfold NameStop; decide⟩

/-- C123: nor is a line break enough in general: what is accepted after another text need not be accepted alone. -/
theorem C123_continuation_witness : (∃ g, Grammar.parseFrom BNF (chars! "<a> ::= 'x'") = some (.ok g)) ∧
    (∃ g, Grammar.parseFrom BNF (chars! "<a> ::= 'x'" ++ '\n' :: chars! " | 'y'") = some (.ok g)) ∧
    Grammar.parseFrom BNF (chars! " | 'y'") = some (.error .parseError) :=
  ⟨⟨_, by rfl⟩, ⟨_, by rfl⟩, by rfl⟩

/-- C123: and the line break is needed: directly after a comment the second text is lost. -/
theorem C123_comment_witness : ∃ g, Grammar.parseFrom BNF (chars! "<a> ::= 'x' ; x") = some (.ok g) ∧
    Grammar.parseFrom BNF (chars! "<a> ::= 'x' ; x" ++ chars! "<b> ::= 'y'") = some (.ok g) :=
  ⟨_, by rfl, by rfl⟩

/-- `<b> ::= ['y'] 'z'` after `<a> ::= ('x' | <a>) [<a>] ; c`: the generated names are numbered on, and `<a>` means what it meant. -/
example (g'' : Grammar) (h : Grammar.parseFrom BNF (tGroups ++ [] ++ '\n' :: chars! "<b> ::= ['y'] 'z'") = some (.ok g'')) (w : Str) :
    Derives g'' (.nonterminal ['a']) w ↔ Derives gGroups (.nonterminal ['a']) w := by
  have h' : GrammarText BNF [⟨['b'], [[.optional [[.simple (.terminal ['y'])]], .simple (.terminal ['z'])]]⟩] (chars! "<b> ::= ['y'] 'z'") :=
    parsedGrammarComplete_sound BNF_regular.named (n := 100) (r := []) (by rfl)
  have hu : ∀ n, ¬ UsedIn n [⟨['b'], [[.optional [[.simple (.terminal ['y'])]], .simple (.terminal ['z'])]]⟩] := by
    rintro n ⟨p, hp, hw⟩
    rw [List.mem_singleton.mp hp] at hw
    cases hw with
    | alts h1 h2 =>
      rw [List.mem_singleton.mp h1] at h2
      cases h2 with
      | terms h3 h4 =>
        simp only [List.mem_cons, List.not_mem_nil, or_false] at h3
        rcases h3 with rfl | rfl
        · cases h4 with
          | optional h5 =>
            cases h5 with
            | alts h6 h7 =>
              rw [List.mem_singleton.mp h6] at h7
              cases h7 with
              | terms h8 h9 => rw [List.mem_singleton.mp h8] at h9; cases h9
        · cases h4
  refine C123_meaning .bnf pgGroups_text .nil (.inr rfl) h' tGroups_parse h ?_ ?_ ⟨_, List.mem_cons_self .., rfl⟩ w
  · rintro n hn ⟨p, hp, rfl⟩
    rw [List.mem_singleton.mp hp] at hn
    have : DeclaredIn ['b'] pgGroups := hn.elim (pgGroups_used _) id
    obtain ⟨q, hq, he⟩ := this
    rw [List.mem_singleton.mp hq] at he
    exact absurd he (by decide)
  · rintro n (hn | hn)
    · exact .inl (pgGroups_used n hn)
    · exact absurd hn (hu n)

/-- The hypothesis of the example holds. -/
example : ∃ g'', Grammar.parseFrom BNF (tGroups ++ [] ++ '\n' :: chars! "<b> ::= ['y'] 'z'") = some (.ok g'') ∧ g''.productions.length = 5 :=
  ⟨_, by rfl, by rfl⟩

end Bnf.Props
