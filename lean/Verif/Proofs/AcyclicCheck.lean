import Verif.Proofs.ParsableInputs

/-! # A check that a grammar has no cyclic derivations -/

set_option autoImplicit false

namespace Bnf
open Spec

/-- The term may derive the empty string, if the names in `nul` may. -/
def mayBeEmpty (nul : List Str) : Term → Bool
  | .terminal s => s.isEmpty
  | .nonterminal n => nul.contains n

/-- The names in `nul` include all that derive the empty string. -/
def nulClosed (g : Grammar) (nul : List Str) : Bool :=
  (g.productions.flatMap fun p => p.rhs.map fun e => (p.lhs, e)).all fun le =>
    !(le.2.terms.all (mayBeEmpty nul)) || mayBeEmpty nul le.1

/-- The nonterminals of a list of terms all of whose other terms may be empty. -/
def alone (nul : List Str) : List Term → List Str
  | [] => []
  | T :: Ts =>
    (match T with
      | .nonterminal m => if Ts.all (mayBeEmpty nul) then [m] else []
      | .terminal _ => []) ++ if mayBeEmpty nul T then alone nul Ts else []

/-- Every step from a nonterminal to one that may stand alone in an alternative goes forward in `order`. -/
def stepsForward (g : Grammar) (nul order : List Str) : Bool :=
  (g.productions.flatMap fun p => p.rhs.map fun e => (p.lhs, e)).all fun le =>
    match le.1 with
    | .nonterminal n => (alone nul le.2.terms).all fun m => order.idxOf n < order.idxOf m
    | .terminal _ => true

theorem mem_alternativesOf {g : Grammar} {l : Term} {e : Expression} (h : HasAlt g l e) :
    (l, e) ∈ g.productions.flatMap fun p => p.rhs.map fun e => (p.lhs, e) := by
  obtain ⟨p, hp, rfl, he⟩ := h
  exact List.mem_flatMap.mpr ⟨p, hp, List.mem_map.mpr ⟨e, he, rfl⟩⟩

theorem mayBeEmpty_of_nullable {g : Grammar} {nul : List Str} (hc : nulClosed g nul = true) {ts ns} (h : IsForest g ts ns) :
    yield ns = [] → ts.all (mayBeEmpty nul) = true := by
  induction h with
  | nil => intro _; rfl
  | terminal _ ih =>
    intro hy
    simp only [yield, nodeYield, List.append_eq_nil_iff] at hy
    simp [mayBeEmpty, hy.1, ih hy.2]
  | @nonterminal n e kids ts ns ha _ _ ih1 ih2 =>
    intro hy
    simp only [yield, nodeYield, List.append_eq_nil_iff] at hy
    have h1 := List.all_eq_true.mp hc _ (mem_alternativesOf ha)
    simp only [ih1 hy.1, Bool.not_true, Bool.false_or] at h1
    simp [h1, ih2 hy.2]

theorem mem_alone {nul : List Str} : ∀ {pre : List Term} {m : Str} {post : List Term}, pre.all (mayBeEmpty nul) = true →
    post.all (mayBeEmpty nul) = true → m ∈ alone nul (pre ++ .nonterminal m :: post)
  | [], m, post, _, h => by simp [alone, h]
  | T :: pre, m, post, h1, h2 => by
    simp only [List.all_cons, Bool.and_eq_true] at h1
    simp only [List.cons_append, alone, h1.1, if_true]
    exact List.mem_append_right _ (mem_alone h1.2 h2)

theorem acyclic_of_check {g : Grammar} (nul order : List Str) (h1 : nulClosed g nul = true) (h2 : stepsForward g nul order = true) :
    Acyclic g := by
  have step : ∀ n m, UnitStep g n m → order.idxOf n < order.idxOf m := by
    rintro n m ⟨e, pre, post, ha, he, ⟨ns, hf, hy⟩, ⟨ns', hf', hy'⟩⟩
    have h3 := List.all_eq_true.mp h2 _ (mem_alternativesOf ha)
    simp only [he] at h3
    have h4 := List.all_eq_true.mp h3 m (mem_alone (mayBeEmpty_of_nullable h1 hf hy) (mayBeEmpty_of_nullable h1 hf' hy'))
    simpa using h4
  have key : ∀ n m, Relation.TransGen (UnitStep g) n m → order.idxOf n < order.idxOf m := by
    intro n m ht
    induction ht with
    | single hs => exact step _ _ hs
    | tail _ hs ih => have := step _ _ hs; omega
  intro n hn
  have := key n n hn
  omega

end Bnf
