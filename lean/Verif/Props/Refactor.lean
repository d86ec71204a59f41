import Verif.Proofs.Refactor
import Verif.Props.Work
import Verif.Proofs.AcyclicCheck

/-! # Property C131: changes to a grammar that keep what is accepted -/

set_option autoImplicit false

namespace Bnf.Props
open Bnf Spec Refactor

/-- The grammars describe the same texts, and the parsers answer the question whether a text is one of them in the same way, whatever the nonterminal to start
with and the way the iterators were obtained. -/
def SameAnswers (g g' : Grammar) : Prop :=
  ∀ n w, (Derives g (.nonterminal n) w ↔ Derives g' (.nonterminal n) w) ∧
    ∀ it it', Opened g (.nonterminal n) w it → Opened g' (.nonterminal n) w it' →
      ((∃ t it1, Next it (some t) it1) ↔ ∃ t it1, Next it' (some t) it1)

theorem sameAnswers_of {g g' : Grammar} (h : ∀ n w, Derives g (.nonterminal n) w ↔ Derives g' (.nonterminal n) w) : SameAnswers g g' := by
  have key : ∀ {g : Grammar} {S w it}, Opened g S w it → ((∃ t it1, Next it (some t) it1) ↔ Derives g S w) := by
    intro g S w it ho
    constructor
    · rintro ⟨t, it', h⟩; exact C05_some_first ho h
    · intro h
      obtain ⟨t, it', h, _⟩ := C03_first_call_returns ho h
      exact ⟨t, it', h⟩
  refine fun n w => ⟨h n w, fun it it' ho ho' => ?_⟩
  rw [key ho, key ho', h n w]

/-- C131: alternatives that can be reached by rewriting with the alternatives of the other grammar may be added and removed. -/
theorem C131_redundant {g g' : Grammar} (h : ∀ n e, HasAlt g (.nonterminal n) e → Rewrites g' [.nonterminal n] e.terms)
    (h' : ∀ n e, HasAlt g' (.nonterminal n) e → Rewrites g [.nonterminal n] e.terms) : SameAnswers g g' := by
  refine sameAnswers_of fun n w => ?_
  rw [derives_spells, derives_spells]
  exact ⟨spells_of_derives fun n e w he hs => spells_rewrites (h n e he) hs,
    spells_of_derives fun n e w he hs => spells_rewrites (h' n e he) hs⟩

/-- C131: alternatives of a nonterminal that consist of the nonterminal itself may be removed. -/
theorem C131_self {g g' : Grammar} (h : ∀ n e, HasAlt g' (.nonterminal n) e ↔ HasAlt g (.nonterminal n) e ∧ e ≠ ⟨[.nonterminal n]⟩) : SameAnswers g g' := by
  refine C131_redundant (fun n e he => ?_) (fun n e he => ?_)
  · by_cases hc : e = ⟨[.nonterminal n]⟩
    · subst hc; exact .refl
    · simpa using Rewrites.step (pre := []) (post := []) .refl ((h n e).mpr ⟨he, hc⟩)
  · simpa using Rewrites.step (pre := []) (post := []) .refl ((h n e).mp he).1

/-- C131: a nonterminal used in an alternative may be replaced there by its alternatives, one after the other. -/
theorem C131_inline {g g' : Grammar} {a b pre post} (ha : HasAlt g (.nonterminal a) ⟨pre ++ .nonterminal b :: post⟩) (h : Inlined g g' a b pre post) :
    SameAnswers g g' := by
  refine sameAnswers_of fun n w => ?_
  rw [derives_spells, derives_spells]
  exact inline_iff h ha

/-- C131: a repetition may be written with the recursion on the left or on the right. -/
theorem C131_direction {g g' : Grammar} {x item} (h : Turned g g' x item) : SameAnswers g g' := by
  refine sameAnswers_of fun n w => ?_
  rw [derives_spells, derives_spells]
  exact turned_iff h

theorem left_right_turned : Turned gLeft gRight ['s'] (· = ⟨[.terminal ['a']]⟩) := by
  refine ⟨fun n e hn => ?_, (· = ⟨[.terminal []]⟩), .inr fun e => Iff.rfl, fun e => ?_, fun e => ?_⟩
  · constructor <;> intro h
    · have := (gLeft_alts h).1; simp at this; exact absurd this hn
    · have := (gRight_alts h).1; simp at this; exact absurd this hn
  · constructor
    · intro h
      rcases (gLeft_alts h).2 with rfl | rfl
      · exact .inr ⟨_, rfl, rfl⟩
      · exact .inl rfl
    · rintro (rfl | ⟨d, rfl, rfl⟩)
      · exact gLeft_alt2
      · exact gLeft_alt1
  · constructor
    · intro h
      rcases (gRight_alts h).2 with rfl | rfl
      · exact .inr ⟨_, rfl, rfl⟩
      · exact .inl rfl
    · rintro (rfl | ⟨d, rfl, rfl⟩)
      · exact gRight_alt2
      · exact gRight_alt1

/-- C131: turning a repetition around keeps the answers but not the work: `<s> ::= 'a' <s> | ''` takes quadratically many rounds for `n` letters and
`<s> ::= <s> 'a' | ''` linearly many. -/
theorem C131_direction_matters : SameAnswers gLeft gRight ∧
    ∀ n itl itr, Opened gLeft (.nonterminal ['s']) (List.replicate n 'a') itl → Opened gRight (.nonterminal ['s']) (List.replicate n 'a') itr →
      ∃ tsl ml itl' tsr mr itr', DrainsIn itl tsl ml itl' ∧ DrainsIn itr tsr mr itr' ∧ ml ≤ 5 * (n + 1) + 1 ∧ (n + 1) * (n + 2) / 2 < mr := by
  refine ⟨C131_direction left_right_turned, fun n itl itr hl hr => ?_⟩
  obtain ⟨tsl, ml, itl', h1, h2⟩ := C66_left_recursion hl
  obtain ⟨tsr, mr, itr', h3, h4, _⟩ := C66_right_recursion hr
  exact ⟨tsl, ml, itl', tsr, mr, itr', h1, h3, by simpa using h2, h4⟩

/-- The grammar of C07 whose parser does not return on "zz", without the alternative `<a>`: it returns on every text and gives the same answers. -/
def gCycOff : Grammar := ⟨gCyc.productions.map fun p => ⟨p.lhs, p.rhs.filter (· ≠ ⟨[p.lhs]⟩)⟩⟩

theorem gCycOff_alts (n e) : HasAlt gCycOff (.nonterminal n) e ↔ HasAlt gCyc (.nonterminal n) e ∧ e ≠ ⟨[.nonterminal n]⟩ := by
  simp only [HasAlt, gCycOff, List.mem_map]
  constructor
  · rintro ⟨_, ⟨p, hp, rfl⟩, hl, he⟩
    simp only [ne_eq, decide_not, List.mem_filter, Bool.not_eq_true', decide_eq_false_iff_not] at he hl
    rw [hl] at he
    exact ⟨⟨p, hp, hl, he.1⟩, he.2⟩
  · rintro ⟨⟨p, hp, hl, he⟩, hne⟩
    refine ⟨_, ⟨p, hp, rfl⟩, hl, ?_⟩
    simp only [ne_eq, decide_not, List.mem_filter, Bool.not_eq_true', decide_eq_false_iff_not]
    rw [hl]
    exact ⟨he, hne⟩

example : SameAnswers gCyc gCycOff ∧ Acyclic gCycOff :=
  ⟨C131_self gCycOff_alts, acyclic_of_check [] [['a']] (by decide) (by decide)⟩

/-- Replacing `<b>` in `<a> ::= 'x' <b>`, `<b> ::= 'y' | <a>`. -/
def gBefore : Grammar := ⟨[⟨.nonterminal ['a'], [⟨[.terminal ['x'], .nonterminal ['b']]⟩]⟩,
  ⟨.nonterminal ['b'], [⟨[.terminal ['y']]⟩, ⟨[.nonterminal ['a']]⟩]⟩]⟩
def gAfter : Grammar := ⟨[⟨.nonterminal ['a'], [⟨[.terminal ['x'], .terminal ['y']]⟩, ⟨[.terminal ['x'], .nonterminal ['a']]⟩]⟩,
  ⟨.nonterminal ['b'], [⟨[.terminal ['y']]⟩, ⟨[.nonterminal ['a']]⟩]⟩]⟩

theorem gBefore_inlined : Inlined gBefore gAfter ['a'] ['b'] [.terminal ['x']] [] := by
  have h1 : ∀ n e, HasAlt gBefore (.nonterminal n) e ↔ (n = ['a'] ∧ e = ⟨[.terminal ['x'], .nonterminal ['b']]⟩) ∨
      (n = ['b'] ∧ (e = ⟨[.terminal ['y']]⟩ ∨ e = ⟨[.nonterminal ['a']]⟩)) := by
    intro n e; simp [HasAlt, gBefore, eq_comm]
  have h2 : ∀ n e, HasAlt gAfter (.nonterminal n) e ↔ (n = ['a'] ∧ (e = ⟨[.terminal ['x'], .terminal ['y']]⟩ ∨ e = ⟨[.terminal ['x'], .nonterminal ['a']]⟩)) ∨
      (n = ['b'] ∧ (e = ⟨[.terminal ['y']]⟩ ∨ e = ⟨[.nonterminal ['a']]⟩)) := by
    intro n e; simp [HasAlt, gAfter, eq_comm]
  intro n e
  rw [h2, h1]
  simp only [h1]
  constructor
  · rintro (⟨rfl, rfl | rfl⟩ | ⟨rfl, h⟩)
    · exact .inr ⟨rfl, _, .inr ⟨trivial, .inl rfl⟩, rfl⟩
    · exact .inr ⟨rfl, _, .inr ⟨trivial, .inr rfl⟩, rfl⟩
    · exact .inl ⟨.inr ⟨rfl, h⟩, by simp⟩
  · rintro (⟨⟨rfl, rfl⟩ | ⟨rfl, h⟩, hn⟩ | ⟨rfl, d, ⟨h, _⟩ | ⟨_, rfl | rfl⟩, rfl⟩)
    · exact absurd ⟨rfl, rfl⟩ hn
    · exact .inr ⟨rfl, h⟩
    · simp at h
    · exact .inl ⟨rfl, .inl rfl⟩
    · exact .inl ⟨rfl, .inr rfl⟩

example : SameAnswers gBefore gAfter := C131_inline (pre := [.terminal ['x']]) (post := []) ⟨_, List.mem_cons_self, rfl, List.mem_cons_self⟩ gBefore_inlined

/-- Not every change of this kind keeps the answers: without `'z'`, nothing is left. -/
example : ¬ SameAnswers gCyc ⟨[⟨.nonterminal ['a'], [⟨[.nonterminal ['a']]⟩]⟩]⟩ := by
  intro h
  have hd : Derives gCyc (.nonterminal ['a']) ['z'] := derives_iff.mpr ⟨⟨[.terminal ['z']]⟩, ⟨_, List.mem_cons_self, rfl, by simp⟩, by simpa using Spells.terminal (s := ['z']) .nil⟩
  obtain ⟨e, he, hs⟩ := derives_iff.mp ((h ['a'] ['z']).1.mp hd)
  have : ∀ {ts w}, Spells ⟨[⟨.nonterminal ['a'], [⟨[.nonterminal ['a']]⟩]⟩]⟩ ts w → Term.nonterminal ['a'] ∉ ts := by
    intro ts w h
    induction h with
    | nil => simp
    | terminal _ ih => simpa using ih
    | nonterminal ha _ _ ih1 _ =>
      obtain ⟨p, hp, _, he⟩ := ha
      simp only [List.mem_cons, List.not_mem_nil, or_false] at hp
      subst hp
      simp only [List.mem_cons, List.not_mem_nil, or_false] at he
      subst he
      exact absurd List.mem_cons_self ih1
  obtain ⟨p, hp, _, he⟩ := he
  simp only [List.mem_cons, List.not_mem_nil, or_false] at hp
  subst hp
  simp only [List.mem_cons, List.not_mem_nil, or_false] at he
  subst he
  exact this hs (by simp)

end Bnf.Props
