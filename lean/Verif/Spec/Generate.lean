import Verif.Spec.Defined
import Verif.Model.Generate

/-!
# Specification: sentences and their expansions

Expansions are independent of the generator: only the data types of grammars are used.
-/

set_option autoImplicit false

namespace Bnf.Spec

/-- `p` is the first production of the nonterminal `n`. -/
def IsFirst (g : Grammar) (n : Str) (p : Production) : Prop :=
  ∃ before after, g.productions = before ++ p :: after ∧ p.lhs = .nonterminal n ∧ ∀ q ∈ before, q.lhs ≠ .nonterminal n

/-- The production offers no choice: no alternatives, or a single one without terms. -/
def NoChoice (p : Production) : Prop := p.rhs = [] ∨ p.rhs = [⟨[]⟩]

/-- `Expansion g ts w L`: replacing each nonterminal of `ts` by an expansion of one of the alternatives of its first production,
which must offer a choice (and a nonterminal without production by its name) gives `w`.  `L` lists the expanded nonterminals with the text each of them
contributes, children before parents, left to right. -/
inductive Expansion (g : Grammar) : List Term → Str → List (Str × Str) → Prop
  | nil : Expansion g [] [] []
  | terminal {u w : Str} {ts L} : Expansion g ts w L → Expansion g (.terminal u :: ts) (u ++ w) L
  | undeclared {n w : Str} {ts L} : ¬ Declared g n → Expansion g ts w L → Expansion g (.nonterminal n :: ts) (n ++ w) L
  | nonterminal {n v w : Str} {p e ts L M} : IsFirst g n p → ¬ NoChoice p → e ∈ p.rhs → Expansion g e.terms v L → Expansion g ts w M →
      Expansion g (.nonterminal n :: ts) (v ++ w) (L ++ (n, v) :: M)

mutual
/-- The nonterminal nodes of a tree with the text below them, children before parents, left to right. -/
def nodeExpansions : ParseTreeNode → List (Str × Str)
  | .terminal _ => []
  | .nonterminal (.nonterminal n) kids => expansions kids ++ [(n, yield kids)]
  | .nonterminal (.terminal _) kids => expansions kids
def expansions : List ParseTreeNode → List (Str × Str)
  | [] => []
  | n :: ns => nodeExpansions n ++ expansions ns
end

/-- Every nonterminal that occurs in an alternative is the left-hand side of a production. -/
def FullyDeclared (g : Grammar) : Prop := ∀ n, Referenced g n → Declared g n

/-- The alternative consists of terminals only. -/
def AllTerminal (e : Expression) : Prop := ∀ t ∈ e.terms, ∃ s, t = .terminal s

/-- `n`'s first production has no alternative made of terminals only, and `m` occurs in one of its alternatives. -/
def Stuck (g : Grammar) (n m : Str) : Prop :=
  ∃ p, IsFirst g n p ∧ (∀ e ∈ p.rhs, ¬ AllTerminal e) ∧ ∃ e ∈ p.rhs, .nonterminal m ∈ e.terms

/-- `m` occurs in an alternative of the first production of `n`. -/
def Refers (g : Grammar) (n m : Str) : Prop := ∃ p, IsFirst g n p ∧ ∃ e ∈ p.rhs, .nonterminal m ∈ e.terms

/-! ## Contracts of strategies, and logging the accepted calls of a callback -/

/-- The strategy only returns alternatives of the production it is given. -/
def Faithful {σ : Type} (S : Strategy σ) : Prop :=
  ∀ st a p d e st', S.choose st a p d = (.expr e, st') → e ∈ p.rhs

/-- The strategy does not panic on a production that has alternatives. -/
def NeverPanics {σ : Type} (S : Strategy σ) : Prop :=
  ∀ st a p d, p.rhs ≠ [] → (S.choose st a p d).1 ≠ .panic

/-- The strategy returns some alternative of every production that has alternatives. -/
def AlwaysChooses {σ : Type} (S : Strategy σ) : Prop :=
  ∀ st a p d, p.rhs ≠ [] → ∃ e ∈ p.rhs, (S.choose st a p d).1 = .expr e

/-- The same strategy next to a log. -/
def logStrategy {σ : Type} (S : Strategy σ) : Strategy (σ × List (Str × Str)) where
  choose st a p d := ((S.choose st.1 a p d).1, ((S.choose st.1 a p d).2, st.2))

/-- The same callback, writing the accepted calls to a log. -/
def logCallback {σ : Type} (f : Callback σ) : Callback (σ × List (Str × Str)) :=
  fun st n t => ((f st.1 n t).1, ((f st.1 n t).2, if (f st.1 n t).1 then st.2 ++ [(n, t)] else st.2))

/-- Forget the log. -/
def unlog {σ : Type} : GenRes (σ × List (Str × Str)) → GenRes σ
  | .fuel => .fuel
  | .panic => .panic
  | .done r st => .done r st.1

/-- Some call of one of the public generation functions returned the sentence. -/
inductive Generated (g : Grammar) (s : Str) : Prop
  | callbackWithStrategy {σ : Type} {S : Strategy σ} {f : Callback σ} {fuel : Nat} {st st' : σ} : Faithful S →
      g.generateWith S f fuel st = .done (.ok s) st' → Generated g s
  | withStrategy {σ : Type} {S : Strategy σ} {fuel : Nat} {st st' : σ} : Faithful S →
      g.generateSeededWithStrategy S fuel st = .done (.ok s) st' → Generated g s
  | seededCallback {ρ Seed τ : Type} {R : Rng ρ Seed} {f : τ → Str → Str → Bool × τ} {fuel : Nat} {rng : ρ} {cb : τ} {st rng'} :
      g.generateSeededCallback R f fuel rng cb = (.done (.ok s) st, rng') → Generated g s
  | seeded {ρ Seed : Type} {R : Rng ρ Seed} {fuel : Nat} {rng : ρ} {st rng'} :
      g.generateSeeded R fuel rng = (.done (.ok s) st, rng') → Generated g s
  | callback {ρ Seed τ : Type} {R : Rng ρ Seed} {f : τ → Str → Str → Bool × τ} {fuel : Nat} {seed : Seed} {cb : τ} {st} :
      g.generateCallback R f fuel seed cb = .done (.ok s) st → Generated g s
  | plain {ρ Seed : Type} {R : Rng ρ Seed} {fuel : Nat} {seed : Seed} {st} :
      g.generate R fuel seed = .done (.ok s) st → Generated g s

/-- Every alternative of a production has at most `B` terms, every terminal and every name used in one has at most `T` characters. -/
structure Sizes (g : Grammar) (B T : Nat) : Prop where
  terms : ∀ p ∈ g.productions, ∀ e ∈ p.rhs, e.terms.length ≤ B
  chars : ∀ p ∈ g.productions, ∀ e ∈ p.rhs, ∀ u, (.terminal u ∈ e.terms ∨ .nonterminal u ∈ e.terms) → u.length ≤ T

end Bnf.Spec
