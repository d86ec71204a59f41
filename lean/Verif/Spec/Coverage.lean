import Verif.Spec.Generate
import Verif.Model.Generate

/-! # What repeated generation with one strategy value has used -/

set_option autoImplicit false

namespace Bnf.Spec

/-- Whatever alternatives are chosen, expanding the nonterminal `m` expands `n`: either they are the same, or every alternative of the
(first) production of `m` contains a nonterminal of which that holds. -/
inductive Unavoidable (g : Grammar) (n : Str) : Str → Prop
  | self : Unavoidable g n n
  | step {m : Str} {p : Production} (k : Expression → Str) : IsFirst g m p → (∀ e ∈ p.rhs, .nonterminal (k e) ∈ e.terms) →
      (∀ e ∈ p.rhs, Unavoidable g n (k e)) → Unavoidable g n m

/-- A strategy watched from outside: it answers as `S` does, and each answer is written down with the production asked for. -/
def Watched {σ : Type} (S : Strategy σ) : Strategy (σ × List (Production × Expression)) where
  choose st a p d :=
    match S.choose st.1 a p d with
    | (.expr e, s) => (.expr e, (s, (p, e) :: st.2))
    | (c, s) => (c, (s, st.2))

/-- `Calls g S f st ss st'`: successive calls of `generate_seeded_callback_with_strategy` on the same grammar with the same strategy
value, each returning a text; `ss` are the texts. -/
inductive Calls {σ : Type} (g : Grammar) (S : Strategy σ) (f : Callback σ) : σ → List Str → σ → Prop
  | nil (st : σ) : Calls g S f st [] st
  | cons {st st1 st2 : σ} {fuel : Nat} {s : Str} {ss : List Str} : g.generateWith S f fuel st = .done (.ok s) st1 →
      Calls g S f st1 ss st2 → Calls g S f st (s :: ss) st2

end Bnf.Spec
