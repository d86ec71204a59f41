import Verif.Proofs.Combine
import Verif.Props.Validation

/-! # Property C119: grammars can be combined -/

set_option autoImplicit false

namespace Bnf.Props
open Bnf Spec Combine

section
variable {s a b : Str} {g₁ g₂ : Grammar}

/-- C119: in a grammar made of two that do not share names, with any rule for a new nonterminal in front, each of the two behaves as before: the same trees in the
same order, the same end, the same number of rounds. -/
theorem C119_parts (h : Combinable s a b g₁ g₂) (alts : List Expression) {input it₁ it₁' it₂ it₂'}
    (ho₁ : Opened g₁ (.nonterminal a) input it₁) (ho₁' : Opened (ruleFor s alts g₁ g₂) (.nonterminal a) input it₁')
    (ho₂ : Opened g₂ (.nonterminal b) input it₂) (ho₂' : Opened (ruleFor s alts g₁ g₂) (.nonterminal b) input it₂') (ts : List ParseTree) :
    ((∃ jt, Draws it₁ ts jt) ↔ ∃ jt, Draws it₁' ts jt) ∧ (GivesAll it₁ ts ↔ GivesAll it₁' ts) ∧ (∀ n, (∃ jt, DrainsIn it₁ ts n jt) ↔ ∃ jt, DrainsIn it₁' ts n jt) ∧
    ((∃ jt, Draws it₂ ts jt) ↔ ∃ jt, Draws it₂' ts jt) ∧ (GivesAll it₂ ts ↔ GivesAll it₂' ts) ∧ (∀ n, (∃ jt, DrainsIn it₂ ts n jt) ↔ ∃ jt, DrainsIn it₂' ts n jt) := by
  obtain ⟨x1, x2, x3⟩ := C82_same_alternatives (fun T hT => (holds_first (alts := alts) h T (needed_mentions (m₁ h) hT)).symm) ho₁ ho₁' ts
  obtain ⟨y1, y2, y3⟩ := C82_same_alternatives (fun T hT => (holds_second (alts := alts) h T (needed_mentions (m₂ h) hT)).symm) ho₂ ho₂' ts
  exact ⟨x1, x2, x3, y1, y2, y3⟩

/-- C119: choice. The trees of `<s> ::= <a> | <b>` are those of the two grammars below a new root, the iterator ends exactly when both others end, and then it has
returned each tree as often as they do. -/
theorem C119_either (h : Combinable s a b g₁ g₂) {input it it₁ it₂} (ho : Opened (either s a b g₁ g₂) (.nonterminal s) input it)
    (ho₁ : Opened g₁ (.nonterminal a) input it₁) (ho₂ : Opened g₂ (.nonterminal b) input it₂) :
    (∀ t, Returns it t ↔ ∃ u, t = over s [u] ∧ (Returns it₁ u ∨ Returns it₂ u)) ∧
    ((∃ ts, GivesAll it ts) ↔ (∃ ts, GivesAll it₁ ts) ∧ ∃ ts, GivesAll it₂ ts) ∧
    ∀ ts ts₁ ts₂, GivesAll it ts → GivesAll it₁ ts₁ → GivesAll it₂ ts₂ → ts.Perm (ts₁.map (fun u => over s [u]) ++ ts₂.map fun u => over s [u]) := by
  refine ⟨fun t => ?_, ?_, fun ts ts₁ ts₂ => either_perm h ho ho₁ ho₂⟩
  · simp only [returns_iff ho, returns_iff ho₁, returns_iff ho₂, either_parse h]
  · rw [ends_iff ho, ends_iff ho₁, ends_iff ho₂, either_trap h, not_or]

/-- C119: sequence. The trees of `<s> ::= <a> <b>` are pairs of trees for the two parts of the input, cut anywhere; the iterator ends exactly when that of `<a>` ends
for the input, and that of `<b>` for what is left after any beginning that is parsed from `<a>`; and then it has returned each pair as often as its two trees are returned. -/
theorem C119_followed (h : Combinable s a b g₁ g₂) {input it} (ho : Opened (followed s a b g₁ g₂) (.nonterminal s) input it) :
    (∀ t, Returns it t ↔ ∃ u v x y it₁ it₂, input = u ++ v ∧ t = over s [x, y] ∧ Opened g₁ (.nonterminal a) u it₁ ∧ Returns it₁ x ∧
      Opened g₂ (.nonterminal b) v it₂ ∧ Returns it₂ y) ∧
    ((∃ ts, GivesAll it ts) ↔ (∀ it₁, Opened g₁ (.nonterminal a) input it₁ → ∃ ts, GivesAll it₁ ts) ∧
      ∀ u v it₂, input = u ++ v → u ∈ accepted g₁ a → Opened g₂ (.nonterminal b) v it₂ → ∃ ts, GivesAll it₂ ts) ∧
    ∀ ts (T₁ T₂ : Str → List ParseTree), GivesAll it ts → (∀ u v, input = u ++ v → ∃ it₁, Opened g₁ (.nonterminal a) u it₁ ∧ GivesAll it₁ (T₁ u)) →
      (∀ u v, input = u ++ v → ∃ it₂, Opened g₂ (.nonterminal b) v it₂ ∧ GivesAll it₂ (T₂ v)) →
      ts.Perm ((cuts input).flatMap fun c => (T₁ c.1).flatMap fun x => (T₂ c.2).map fun y => over s [x, y]) := by
  have n₁ := nonempty_of_mentions (m₁ h)
  have n₂ := nonempty_of_mentions (m₂ h)
  refine ⟨fun t => ?_, ?_, fun ts T₁ T₂ hy h1 h2 => followed_perm h ho hy h1 h2⟩
  · rw [returns_iff ho, followed_parse h]
    constructor
    · rintro ⟨u, v, x, y, hw, ht, hx, hy⟩
      obtain ⟨it₁, o₁⟩ := opened_of (S := .nonterminal a) (input := u) n₁
      obtain ⟨it₂, o₂⟩ := opened_of (S := .nonterminal b) (input := v) n₂
      exact ⟨u, v, x, y, it₁, it₂, hw, ht, o₁, (returns_iff o₁).mpr hx, o₂, (returns_iff o₂).mpr hy⟩
    · rintro ⟨u, v, x, y, it₁, it₂, hw, ht, o₁, hx, o₂, hy⟩
      exact ⟨u, v, x, y, hw, ht, (returns_iff o₁).mp hx, (returns_iff o₂).mp hy⟩
  · rw [ends_iff ho, followed_trap h, not_or]
    constructor
    · rintro ⟨h1, h2⟩
      refine ⟨fun it₁ o₁ => (ends_iff o₁).mpr h1, fun u v it₂ hw hu o₂ => (ends_iff o₂).mpr fun ht => h2 ⟨u, v, hw, (accepted_iff n₁).mp hu, ht⟩⟩
    · rintro ⟨h1, h2⟩
      obtain ⟨it₁, o₁⟩ := opened_of (S := .nonterminal a) (input := input) n₁
      refine ⟨(ends_iff o₁).mp (h1 it₁ o₁), ?_⟩
      rintro ⟨u, v, hw, hu, ht⟩
      obtain ⟨it₂, o₂⟩ := opened_of (S := .nonterminal b) (input := v) n₂
      exact (ends_iff o₂).mp (h2 u v it₂ hw ((accepted_iff n₁).mpr hu) o₂) ht

/-- C119: repetition. The trees of `<s> ::= '' | <a> <s>` are chains of trees for the parts of the input, cut into any number of parts; the iterator ends exactly when
the empty text is not parsed from `<a>` and the iterator of `<a>` ends for what is left after any number of parts. -/
theorem C119_repeated {g : Grammar} (hs : ¬ Mentions g (.nonterminal s)) (hd : Defines g (.nonterminal a)) {input it}
    (ho : Opened (repeated s a g) (.nonterminal s) input it) :
    (∀ t, Returns it t ↔ ∃ us ws, t = chain s us ∧ input = ws.flatten ∧
      List.Forall₂ (fun w u => ∃ jt, Opened g (.nonterminal a) w jt ∧ Returns jt u) ws us) ∧
    ((∃ ts, GivesAll it ts) ↔ [] ∉ accepted g a ∧
      ∀ u v jt, input = u ++ v → u ∈ KStar.kstar (accepted g a) → Opened g (.nonterminal a) v jt → ∃ ts, GivesAll jt ts) := by
  have n := nonempty_of_mentions (mentions_of_defines hd)
  have hk : ∀ u, u ∈ KStar.kstar (accepted g a) ↔ Derives (repeated s a g) (.nonterminal s) u := by
    intro u
    rw [repeated_derives hs hd, Language.mem_kstar]
    simp only [accepted_iff n]
  refine ⟨fun t => ?_, ?_⟩
  · rw [returns_iff ho, repeated_parse hs hd]
    refine exists_congr fun us => exists_congr fun ws => and_congr_right fun _ => and_congr_right fun _ => ?_
    constructor
    · intro hf
      refine hf.imp fun w u hu => ?_
      obtain ⟨jt, o⟩ := opened_of (S := .nonterminal a) (input := w) n
      exact ⟨jt, o, (returns_iff o).mpr hu⟩
    · intro hf
      exact hf.imp fun w u ⟨jt, o, hu⟩ => (returns_iff o).mp hu
  · rw [ends_iff ho, repeated_trap hs hd, not_or, accepted_iff n]
    refine and_congr_right fun _ => ⟨fun h u v jt hw hu o => (ends_iff o).mpr fun ht => h ⟨u, v, hw, (hk u).mp hu, ht⟩, ?_⟩
    rintro h ⟨u, v, hw, hu, ht⟩
    obtain ⟨jt, o⟩ := opened_of (S := .nonterminal a) (input := v) n
    exact (ends_iff o).mp (h u v jt hw ((hk u).mpr hu) o) ht

/-- C119: the accepted texts: union, concatenation and Kleene star of languages. -/
theorem C119_languages (h : Combinable s a b g₁ g₂) :
    accepted (either s a b g₁ g₂) s = accepted g₁ a + accepted g₂ b ∧
    accepted (followed s a b g₁ g₂) s = accepted g₁ a * accepted g₂ b ∧
    accepted (repeated s a g₁) s = KStar.kstar (accepted g₁ a) := by
  have n₁ := nonempty_of_mentions (m₁ h)
  have n₂ := nonempty_of_mentions (m₂ h)
  refine ⟨?_, ?_, ?_⟩
  · ext w
    rw [accepted_iff (by simp [either, ruleFor]), Language.mem_add, accepted_iff n₁, accepted_iff n₂]
    constructor
    · rintro ⟨t, ht⟩
      obtain ⟨u, _, hu | hu⟩ := (either_parse h).mp ht
      · exact .inl ⟨u, hu⟩
      · exact .inr ⟨u, hu⟩
    · rintro (⟨u, hu⟩ | ⟨u, hu⟩)
      · exact ⟨_, (either_parse h).mpr ⟨u, rfl, .inl hu⟩⟩
      · exact ⟨_, (either_parse h).mpr ⟨u, rfl, .inr hu⟩⟩
  · ext w
    rw [accepted_iff (by simp [followed, ruleFor]), Language.mem_mul]
    simp only [accepted_iff n₁, accepted_iff n₂]
    constructor
    · rintro ⟨t, ht⟩
      obtain ⟨u, v, x, y, hw, _, hx, hy⟩ := (followed_parse h).mp ht
      exact ⟨u, ⟨x, hx⟩, v, ⟨y, hy⟩, hw.symm⟩
    · rintro ⟨u, ⟨x, hx⟩, v, ⟨y, hy⟩, hw⟩
      exact ⟨_, (followed_parse h).mpr ⟨u, v, x, y, hw.symm, rfl, hx, hy⟩⟩
  · ext w
    rw [accepted_iff (by simp [repeated]), repeated_derives h.fresh₁ h.first, Language.mem_kstar]
    simp only [accepted_iff n₁]

/-- C119: `build_parser` accepts the choice or the sequence exactly when it accepts both grammars, and `<a>` and `<b>` have alternatives there. -/
theorem C119_build_parser (h : Combinable s a b g₁ g₂) (ord : List Str → List Str) (hord : ∀ l, (ord l).Perm l) :
    ((∃ p, (either s a b g₁ g₂).buildParser ord = .ok p) ↔
      (∃ p, g₁.buildParser ord = .ok p) ∧ (∃ p, g₂.buildParser ord = .ok p) ∧ Defined g₁ a ∧ Defined g₂ b) ∧
    ((∃ p, (followed s a b g₁ g₂).buildParser ord = .ok p) ↔
      (∃ p, g₁.buildParser ord = .ok p) ∧ (∃ p, g₂.buildParser ord = .ok p) ∧ Defined g₁ a ∧ Defined g₂ b) := by
  have n₁ := nonempty_of_mentions (m₁ h)
  have n₂ := nonempty_of_mentions (m₂ h)
  have key : ∀ alts : List Expression, (∀ n, (∃ e ∈ alts, Term.nonterminal n ∈ e.terms) ↔ n = a ∨ n = b) →
      ((∃ p, (ruleFor s alts g₁ g₂).buildParser ord = .ok p) ↔
        (∃ p, g₁.buildParser ord = .ok p) ∧ (∃ p, g₂.buildParser ord = .ok p) ∧ Defined g₁ a ∧ Defined g₂ b) := by
    intro alts halts
    have r : ∀ n, Referenced (ruleFor s alts g₁ g₂) n ↔ (n = a ∨ n = b) ∨ Referenced g₁ n ∨ Referenced g₂ n := by
      intro n
      rw [← halts n]
      unfold Referenced
      constructor
      · rintro ⟨l, e, ⟨p, hp, hl, he⟩, hn⟩
        simp only [ruleFor, List.mem_cons, List.mem_append] at hp
        rcases hp with rfl | hp | hp
        · exact .inl ⟨e, he, hn⟩
        · exact .inr (.inl ⟨l, e, ⟨p, hp, hl, he⟩, hn⟩)
        · exact .inr (.inr ⟨l, e, ⟨p, hp, hl, he⟩, hn⟩)
      · rintro (⟨e, he, hn⟩ | ⟨l, e, ⟨p, hp, hl, he⟩, hn⟩ | ⟨l, e, ⟨p, hp, hl, he⟩, hn⟩)
        · exact ⟨_, e, ⟨_, List.mem_cons_self .., rfl, he⟩, hn⟩
        · exact ⟨l, e, ⟨p, by simp [ruleFor, hp], hl, he⟩, hn⟩
        · exact ⟨l, e, ⟨p, by simp [ruleFor, hp], hl, he⟩, hn⟩
    have d₁ : ∀ n, Mentions g₁ (.nonterminal n) → (Defined (ruleFor s alts g₁ g₂) n ↔ Defined g₁ n) :=
      fun n hn => exists_congr fun e => ((holds_first h).alt hn e).symm
    have d₂ : ∀ n, Mentions g₂ (.nonterminal n) → (Defined (ruleFor s alts g₁ g₂) n ↔ Defined g₂ n) :=
      fun n hn => exists_congr fun e => ((holds_second h).alt hn e).symm
    have rm : ∀ {g : Grammar} {n}, Referenced g n → Mentions g (.nonterminal n) := fun ⟨_, _, ha, hn⟩ => mentions_of_alt ha hn
    rw [C14_build_parser_ok_iff ord hord, C14_build_parser_ok_iff ord hord, C14_build_parser_ok_iff ord hord]
    constructor
    · rintro ⟨_, hx⟩
      exact ⟨⟨n₁, fun n hn => (d₁ n (rm hn)).mp (hx n ((r n).mpr (.inr (.inl hn))))⟩, ⟨n₂, fun n hn => (d₂ n (rm hn)).mp (hx n ((r n).mpr (.inr (.inr hn))))⟩,
        (d₁ a (m₁ h)).mp (hx a ((r a).mpr (.inl (.inl rfl)))), (d₂ b (m₂ h)).mp (hx b ((r b).mpr (.inl (.inr rfl))))⟩
    · rintro ⟨⟨_, h1⟩, ⟨_, h2⟩, h3, h4⟩
      refine ⟨by simp [ruleFor], fun n hn => ?_⟩
      rcases (r n).mp hn with (rfl | rfl) | hn | hn
      · exact (d₁ n (m₁ h)).mpr h3
      · exact (d₂ n (m₂ h)).mpr h4
      · exact (d₁ n (rm hn)).mpr (h1 n hn)
      · exact (d₂ n (rm hn)).mpr (h2 n hn)
  exact ⟨key _ (by simp), key _ (by simp)⟩

end

/-! ## Examples -/

/-- `<n> ::= '1' | '1' <n>`. -/
private def gOnes : Grammar := ⟨[⟨.nonterminal ['n'], [⟨[.terminal ['1']]⟩, ⟨[.terminal ['1'], .nonterminal ['n']]⟩]⟩]⟩

/-- `gExp` and `gOnes` can be combined. -/
theorem C119_example : Combinable ['s'] ['e'] ['n'] gExp gOnes := by
  constructor <;> simp [Mentions, Defines, gExp, gOnes]
  rintro T (rfl | rfl) <;> simp

/-- `<s> ::= <e> | <n>` accepts "y" and "11"; both are parsed by one tree. -/
example : ∃ it it' it'', Opened (either ['s'] ['e'] ['n'] gExp gOnes) (.nonterminal ['s']) ['1', '1'] it ∧
    Draws it [over ['s'] [⟨.nonterminal ['n'], [.terminal ['1'], .nonterminal (.nonterminal ['n']) [.terminal ['1']]]⟩]] it' ∧ Next it' none it'' :=
  ⟨_, _, _, .deprecatedStarting rfl, .cons ⟨100, rfl⟩ .nil, ⟨100, rfl⟩⟩

/-- `<s> ::= '' | <n> <s>`: "11" has two trees. -/
example : ∃ it it' it'' t u, Opened (repeated ['s'] ['n'] gOnes) (.nonterminal ['s']) ['1', '1'] it ∧ Draws it [t, u] it' ∧ Next it' none it'' :=
  ⟨_, _, _, _, _, .deprecatedStarting rfl, .cons ⟨100, rfl⟩ (.cons ⟨100, rfl⟩ .nil), ⟨100, rfl⟩⟩

end Bnf.Props
