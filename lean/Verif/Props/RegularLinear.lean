import Verif.Proofs.RegularLinear
import Verif.Props.Work
import Verif.Props.Validation
import Verif.Props.Text
import Mathlib.Data.Finite.Card

/-! # Property C129: every regular language has a grammar text that is parsed in linearly many rounds

`DFA` and `Language.IsRegular` are Mathlib's. -/

set_option autoImplicit false

namespace Bnf.Props
open Bnf Spec

/-- The trees of a drained iterator, in a grammar where no text has two. -/
theorem drained_trees {g S w it ts n it'} (hn : (alternatives g).Nodup) (hu : ∀ t t', IsParse g S w t → IsParse g S w t' → t = t')
    (ho : Opened g S w it) (h : DrainsIn it ts n it') :
    (Derives g S w → ts.length = 1) ∧ (¬ Derives g S w → ts = []) := by
  obtain ⟨it1, hd, hnx⟩ := drainsIn_draws h
  have hm := C05_exhausted_exact ho hd hnx
  have hnd := C04_no_duplicates hn ho hd
  constructor
  · rintro ⟨t, ht⟩
    have h1 := (hm t).mpr ht
    match ts, h1, hm, hnd with
    | [_], _, _, _ => rfl
    | a :: b :: _, _, hm, hnd =>
      exfalso
      have := hu a b ((hm a).mp (by simp)) ((hm b).mp (by simp))
      subst this
      simp at hnd
  · intro hw
    cases ts with
    | nil => rfl
    | cons a _ => exact absurd ⟨a, (hm a).mp (by simp)⟩ hw

/-- A parser built from the text of a printable grammar in which all names are defined, and the iterator for each text. -/
theorem text_parser {f : Char → Bool} (hf : AlphabeticTable f) (ord : List Str → List Str) (hord : ∀ l, (ord l).Perm l)
    {g : Grammar} (hp : PrintableGrammar g) (hd : ∀ n, Referenced g n → Defined g n) {S : Term} (hs : g.startingTerm = some S) :
    ∃ text p, Grammar.fromStr f text = some (.ok g) ∧ g.buildParser ord = .ok p ∧
      ∀ w, ∃ it, p.parseInput w = some it ∧ Opened g S w it := by
  obtain ⟨p, hb⟩ := (C14_build_parser_ok_iff ord hord g).mpr ⟨hp.1, hd⟩
  refine ⟨g.display, p, (C20_grammar_round_trip hf _).mpr ⟨hp.1, hp.2⟩, hb, fun w => ?_⟩
  obtain ⟨it, hi, _⟩ := new_inv (buildParser_ok hb).2 w S
  have hs' : p.startingTerm = S := by
    have := (buildParser_ok hb).1
    rw [hs, Option.some.injEq] at this
    exact this.symm
  refine ⟨it, ?_, .parserStarting hb hi⟩
  rw [← hi]
  unfold GrammarParser.parseInput
  rw [hs']
  rfl

/-- C129: for every deterministic automaton whose words are made of finitely many letters there is a grammar text with which every text is parsed
completely, in a number of rounds that is linear in the length of the text, giving one tree for the words of the automaton and none for other texts.
The factor is given by the number of states and of letters. -/
theorem C129_automaton {f : Char → Bool} (hf : AlphabeticTable f) (ord : List Str → List Str) (hord : ∀ l, (ord l).Perm l)
    {σ : Type} [Fintype σ] (M : DFA Char σ) (A : Finset Char) (hA : ∀ w ∈ M.accepts, ∀ c ∈ w, c ∈ A) :
    ∃ text g p, Grammar.fromStr f text = some (.ok g) ∧ g.buildParser ord = .ok p ∧
      ∀ w, ∃ it ts n it', p.parseInput w = some it ∧ DrainsIn it ts n it' ∧
        n ≤ (3 * (Fintype.card σ * A.card) + 2 * Fintype.card σ + 2) * (w.length + 1) + 1 ∧
        (w ∈ M.accepts → ts.length = 1) ∧ (w ∉ M.accepts → ts = []) := by
  by_cases hne : ∃ w, w ∈ M.accepts
  · obtain ⟨v, hv⟩ := hne
    obtain ⟨text, p, h1, h2, h3⟩ := text_parser hf ord hord (Reg.gram_printable ⟨v, hv, hA v hv⟩) Reg.gram_defined
      (S := .nonterminal ['s']) rfl
    refine ⟨text, _, p, h1, h2, fun w => ?_⟩
    obtain ⟨it, h4, ho⟩ := h3 w
    obtain ⟨ts, n, it', h5, h6⟩ := C66_few_places Reg.gram_nodup Reg.gram_unambiguous Reg.gram_productive ho {0}
      (fun u T hex => by simp [Reg.gram_expected hex])
    have h7 := drained_trees Reg.gram_nodup (fun t t' => Reg.gram_unambiguous _ _ t t') ho h5
    have h8 : Derives (Reg.gram M A) (.nonterminal ['s']) w ↔ w ∈ M.accepts :=
      (Reg.gram_language w).trans ⟨fun h => h.2, fun h => ⟨hA w h, h⟩⟩
    rw [h8] at h7
    refine ⟨it, ts, n, it', h4, h5, ?_, h7.1, h7.2⟩
    rw [Finset.card_singleton, Nat.mul_one] at h6
    have := Nat.mul_le_mul_right (w.length + 1) (Reg.gram_places (M := M) (A := A))
    omega
  · obtain ⟨text, p, h1, h2, h3⟩ := text_parser hf ord hord (g := gNone) (by
      refine ⟨by simp [gNone], ?_⟩
      simp [gNone, PrintableProduction, PrintableExpression, Printable]) (by
      rintro n ⟨l, e, ha, hm⟩
      obtain ⟨_, rfl⟩ := gNone_alt ha
      simp only [List.mem_cons, Term.nonterminal.injEq, reduceCtorEq, List.not_mem_nil, or_false] at hm
      subst hm
      exact ⟨_, _, List.mem_cons_self, rfl, List.mem_cons_self⟩) (S := .nonterminal ['s']) rfl
    refine ⟨text, _, p, h1, h2, fun w => ?_⟩
    obtain ⟨it, h4, ho⟩ := h3 w
    have hsub : {x | Viable gNone (.nonterminal ['s']) w x} ⊆
        {⟨[], .nonterminal ['s'], ⟨[.nonterminal ['s'], .terminal ['x']]⟩, []⟩} := fun x hx => gNone_viable hx
    have hn : (alternatives gNone).Nodup := by decide
    obtain ⟨ts, n, it', h5⟩ := (C65_drains_iff hn ho).mpr ((Set.finite_singleton _).subset hsub)
    have h6 := (C65_exact hn ho h5).2.2
    have h7 := Set.ncard_le_ncard hsub (Set.finite_singleton _)
    rw [Set.ncard_singleton] at h7
    have h8 := drained_trees hn (fun t t' h => absurd ⟨t, h⟩ gNone_derives) ho h5
    refine ⟨it, ts, n, it', h4, h5, ?_, fun h => absurd ⟨w, h⟩ hne, fun _ => h8.2 gNone_derives⟩
    have : 1 * 1 ≤ (3 * (Fintype.card σ * A.card) + 2 * Fintype.card σ + 2) * (w.length + 1) := Nat.mul_le_mul (by omega) (by omega)
    omega

theorem char_finite : Finite Char :=
  Finite.of_injective (fun c : Char => (⟨c.toNat, Nat.lt_of_lt_of_le c.val.toBitVec.isLt (by decide)⟩ : Fin (2 ^ 32))) (by
    intro a b h
    simp only [Fin.mk.injEq] at h
    exact Char.ext (UInt32.toNat_inj.mp h))

/-- C129: every regular language of texts. -/
theorem C129_regular {f : Char → Bool} (hf : AlphabeticTable f) (ord : List Str → List Str) (hord : ∀ l, (ord l).Perm l)
    (L : Language Char) (hL : L.IsRegular) :
    ∃ text g p K, Grammar.fromStr f text = some (.ok g) ∧ g.buildParser ord = .ok p ∧
      ∀ w, ∃ it ts n it', p.parseInput w = some it ∧ DrainsIn it ts n it' ∧ n ≤ K * (w.length + 1) ∧
        (w ∈ L → ts.length = 1) ∧ (w ∉ L → ts = []) := by
  obtain ⟨σ, _, M, rfl⟩ := hL
  have := char_finite
  obtain ⟨text, g, p, h1, h2, h3⟩ := C129_automaton hf ord hord M (Set.finite_univ (α := Char)).toFinset (by simp)
  generalize 3 * (Fintype.card σ * _) + 2 * Fintype.card σ + 2 = K at h3
  refine ⟨text, g, p, K + 1, h1, h2, fun w => ?_⟩
  obtain ⟨it, ts, n, it', h4, h5, h6, h7⟩ := h3 w
  refine ⟨it, ts, n, it', h4, h5, le_trans h6 ?_, h7⟩
  rw [Nat.add_mul]
  omega

/-- An automaton for the texts of `a` with an even number of them. -/
def evenA : DFA Char (Option Bool) where
  start := some true
  accept := {some true}
  step q c := if c = 'a' then q.map not else none

theorem evenA_none (w : Str) : evenA.evalFrom none w = none := by
  induction w with
  | nil => rfl
  | cons c w ih => rw [DFA.evalFrom_cons]; simpa [evenA] using ih

theorem evenA_letters (b : Bool) (w : Str) (h : evenA.evalFrom (some b) w ∈ evenA.accept) : ∀ c ∈ w, c ∈ ({'a'} : Finset Char) := by
  induction w generalizing b with
  | nil => simp
  | cons c w ih =>
    rw [DFA.evalFrom_cons] at h
    by_cases hc : c = 'a'
    · subst hc
      have := ih (!b) h
      simpa using this
    · rw [show evenA.step (some b) c = none by simp [evenA, hc], evenA_none] at h
      simp [evenA] at h

/-- With three states and one letter: at most `17 (n + 1) + 1` rounds for every text of `n` characters. -/
example : ∃ text g p, Grammar.fromStr Char.isAlpha text = some (.ok g) ∧ g.buildParser id = .ok p ∧
    ∀ w, ∃ it ts n it', p.parseInput w = some it ∧ DrainsIn it ts n it' ∧ n ≤ 17 * (w.length + 1) + 1 ∧
      (w ∈ evenA.accepts → ts.length = 1) ∧ (w ∉ evenA.accepts → ts = []) := by
  simpa using C129_automaton table_example id (fun l => .refl l) evenA {'a'} (fun w h => evenA_letters true w h)
example : ['a', 'a'] ∈ evenA.accepts ∧ ['a'] ∉ evenA.accepts ∧ ['b'] ∉ evenA.accepts := by
  refine ⟨?_, ?_, ?_⟩ <;> simp [DFA.mem_accepts, DFA.eval, DFA.evalFrom, evenA]
example : evenA.accepts.IsRegular := ⟨_, inferInstance, evenA, rfl⟩

end Bnf.Props
