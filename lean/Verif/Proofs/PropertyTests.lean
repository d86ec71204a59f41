import Verif.Spec.PropertyTests
import Verif.Proofs.Normalize
import Verif.Spec.Copies
import Verif.Proofs.TextPrint
import Verif.Proofs.Generate
import Mathlib.Logic.Relation

/-! # Lemmas about the values of the crate's property tests -/

set_option autoImplicit false

namespace Bnf
open Spec

/-! ## Round trips -/

theorem arbitraryTerm_printable {t : Term} (h : ArbitraryTerm t) : Printable t := by
  obtain ⟨b, u, rfl⟩ := h
  unfold arbitraryTerm
  split
  · simp [Printable]
  · split
    · exact .inr (by simp)
    · split
      · exact .inl (by simp)
      · exact .inl (by assumption)

theorem arbitraryExpression_printable {e : Expression} (h : ArbitraryExpression e) : PrintableExpression e :=
  ⟨h.1, fun t ht => arbitraryTerm_printable (h.2 t ht)⟩

theorem arbitraryProduction_printable {p : Production} (h : ArbitraryProduction p) : PrintableProduction p := by
  obtain ⟨⟨u, hu⟩, h1, h2⟩ := h
  exact ⟨⟨_, hu, by simp⟩, h1, fun e he => arbitraryExpression_printable (h2 e he)⟩

theorem arbitraryGrammar_printable {g : Grammar} (h : ArbitraryGrammar g) : PrintableGrammar g :=
  ⟨h.1, fun p hp => arbitraryProduction_printable (h.2 p hp)⟩

/-! ## Layered grammars -/

theorem ntName_inj {i j : Nat} (h : ntName i = ntName j) : i = j := decimal_inj (by simpa [ntName] using h)

theorem ntName_ne_undefined (i j : Nat) : ntName i ≠ undefinedName j := by simp [ntName, undefinedName]

/-- Only the alternatives matter, not their order. -/
theorem acyclic_of_layers {g : Grammar} (h : ∀ l e, HasAlt g l e → ∃ i, l = .nonterminal (ntName i) ∧
    ∀ m, .nonterminal m ∈ e.terms → ∃ j < i, m = ntName j) : Acyclic g := by
  have key : ∀ n m, Relation.TransGen (UnitStep g) n m → ∃ i j, j < i ∧ n = ntName i ∧ m = ntName j := by
    intro n m ht
    have step : ∀ n m, UnitStep g n m → ∃ i j, j < i ∧ n = ntName i ∧ m = ntName j := by
      rintro n m ⟨e, pre, post, ha, he, _, _⟩
      obtain ⟨i, hi, hj⟩ := h _ _ ha
      obtain ⟨j, hlt, hm⟩ := hj m (by rw [he]; simp)
      injection hi with hi
      exact ⟨i, j, hlt, hi, hm⟩
    induction ht with
    | single hs => exact step _ _ hs
    | tail _ hs ih =>
      obtain ⟨i, j, h1, h2, h3⟩ := ih
      obtain ⟨i', j', h4, h5, h6⟩ := step _ _ hs
      have := ntName_inj (h3.symm.trans h5)
      exact ⟨i, j', by omega, h2, h6⟩
  intro n hn
  obtain ⟨i, j, h1, h2, h3⟩ := key n n hn
  have := ntName_inj (h2.symm.trans h3)
  omega

variable {lo hi alts terms : Nat} {g : Grammar}

theorem layered_alt (h : LayeredGrammar lo hi alts terms g) {l : Term} {e : Expression} (ha : HasAlt g l e) :
    ∃ i < g.productions.length, l = .nonterminal (ntName i) ∧ e.terms ≠ [] ∧
      ∀ t ∈ e.terms, (∃ u, t = .terminal u) ∨ ∃ j < i, t = .nonterminal (ntName j) := by
  obtain ⟨p, hp, hl, he⟩ := ha
  obtain ⟨i, hi, hpi⟩ := List.mem_iff_getElem.1 hp
  have hq : g.productions[i]? = some p := by rw [List.getElem?_eq_getElem hi, hpi]
  exact ⟨i, hi, by rw [← hl]; exact h.lhs i p hq, by
    have := (h.terms p hp e he).1
    intro h0; simp [h0] at this, h.earlier i p hq e he⟩

theorem layered_acyclic (h : LayeredGrammar lo hi alts terms g) : Acyclic g := by
  apply acyclic_of_layers
  intro l e ha
  obtain ⟨i, _, h1, _, h2⟩ := layered_alt h ha
  refine ⟨i, h1, fun m hm => ?_⟩
  rcases h2 _ hm with ⟨u, hu⟩ | ⟨j, hj, hm⟩
  · cases hu
  · injection hm with hm; exact ⟨j, hj, hm⟩

theorem layered_defined (h : LayeredGrammar lo hi alts terms g) : ∀ n, Referenced g n → Defined g n := by
  rintro n ⟨l, e, ha, hn⟩
  obtain ⟨i, hi, _, _, h2⟩ := layered_alt h ha
  rcases h2 _ hn with ⟨u, hu⟩ | ⟨j, hj, hm⟩
  · cases hu
  · injection hm with hm
    subst hm
    have hlt : j < g.productions.length := by omega
    have hq : g.productions[j]? = some g.productions[j] := List.getElem?_eq_getElem hlt
    have hmem : g.productions[j] ∈ g.productions := List.getElem_mem hlt
    have hne : g.productions[j].rhs ≠ [] := by
      have := (h.rhs _ hmem).1
      intro h0; simp [h0] at this
    obtain ⟨e, es, he⟩ := List.exists_cons_of_ne_nil hne
    exact ⟨e, _, hmem, h.lhs j _ hq, by rw [he]; simp⟩

theorem timesListed_perm {g g' : Grammar} (h : g'.productions.Perm g.productions) (l : Term) (e : Expression) :
    timesListed g l e = timesListed g' l e := by
  unfold timesListed
  exact ((h.map _).sum_nat).symm

theorem hasAlt_perm {g g' : Grammar} (h : g'.productions.Perm g.productions) (l : Term) (e : Expression) :
    HasAlt g' l e ↔ HasAlt g l e := by
  unfold HasAlt
  simp only [h.mem_iff]

/-- The first production of such a grammar has terminals only. -/
theorem layered_first (h : LayeredGrammar lo hi alts terms g) (h1 : 1 ≤ lo) :
    ∃ p ps, g.productions = p :: ps ∧ p.lhs = .nonterminal (ntName 0) ∧ p.rhs ≠ [] ∧
      ∀ e ∈ p.rhs, e.terms ≠ [] ∧ ∀ t ∈ e.terms, ∃ u, t = .terminal u := by
  cases hp : g.productions with
  | nil => have := h.few.1; simp [hp] at this; omega
  | cons p ps =>
    have hm : p ∈ g.productions := by rw [hp]; simp
    have h0 : g.productions[0]? = some p := by rw [hp]; rfl
    refine ⟨p, ps, rfl, h.lhs 0 p h0, ?_, fun e he => ⟨?_, fun t ht => ?_⟩⟩
    · have := (h.rhs p hm).1
      intro h0; simp [h0] at this
    · have := (h.terms p hm e he).1
      intro h0; simp [h0] at this
    · rcases h.earlier 0 p h0 e he t ht with hu | ⟨j, hj, _⟩
      · exact hu
      · omega

theorem allTerminal_forest {ts : List Term} (h : ∀ t ∈ ts, ∃ u, t = .terminal u) : ∃ ns, IsForest g ts ns := by
  induction ts with
  | nil => exact ⟨[], .nil⟩
  | cons t ts ih =>
    obtain ⟨u, rfl⟩ := h t (by simp)
    obtain ⟨ns, hn⟩ := ih fun t ht => h t (by simp [ht])
    exact ⟨_, .terminal hn⟩

theorem allTerminal_nodes {ts : List Term} {ns} (h : ∀ t ∈ ts, ∃ u, t = .terminal u) (hf : IsForest g ts ns) :
    ∀ n ∈ ns, ∃ u, n = .terminal u := by
  induction hf with
  | nil => simp
  | terminal _ ih =>
    intro n hn
    rcases List.mem_cons.1 hn with rfl | hn
    · exact ⟨_, rfl⟩
    · exact ih (fun t ht => h t (by simp [ht])) n hn
  | nonterminal _ _ _ _ _ =>
    obtain ⟨u, hu⟩ := h (.nonterminal _) (List.mem_cons_self ..)
    cases hu

theorem allTerminal_eval {σ : Type} {trav : Str → σ → GenRes σ} {ts : List Term} (h : ∀ t ∈ ts, ∃ u, t = .terminal u) (r : Str) (st : σ) :
    ∃ s, evalTerms trav ts r st = .done (.ok s) st := by
  induction ts generalizing r with
  | nil => exact ⟨r, rfl⟩
  | cons t ts ih =>
    obtain ⟨u, rfl⟩ := h t (by simp)
    exact ih (fun t ht => h t (by simp [ht])) _

theorem terminals_generate {σ : Type} {S : Strategy σ} {f : Callback σ} {q : Production} {ps : List Production} {n : Str}
    (ht : g.terminates = some true) (h1 : g.productions = q :: ps) (h2 : q.lhs = .nonterminal n) (h3 : q.rhs ≠ [])
    (hnc : productionHasNoChoice q = false) (h4 : ∀ e ∈ q.rhs, ∀ t ∈ e.terms, ∃ u, t = .terminal u) (hS : AlwaysChooses S)
    (hf : ∀ st n s, (f st n s).1 = true) (fuel : Nat) (st : σ) : ∃ s st', g.generateWith S f (fuel + 1) st = .done (.ok s) st' := by
  have hfind : findProduction n g.productions 0 = some (0, q) := by rw [h1]; simp [findProduction, h2]
  unfold Grammar.generateWith
  rw [ht]
  simp only [h1, h2]
  rw [traverse_choose hfind (by simp [hnc])]
  obtain ⟨e, he, hc⟩ := hS st 0 q 0 h3
  cases hch : S.choose st 0 q 0 with
  | mk c st1 =>
    rw [hch] at hc
    simp only at hc
    subst hc
    obtain ⟨s, hs⟩ := allTerminal_eval (trav := fun nt st => traverse g S f fuel nt (0 + 1) st) (h4 e he) [] st1
    simp only [hs, hf, if_true]
    exact ⟨s, _, rfl⟩

/-! ## Inserting nonterminals that derive the empty string -/

theorem padded_append {g : Grammar} {ts ts' us us'} (h : Padded g ts ts') (h' : Padded g us us') : Padded g (ts ++ us) (ts' ++ us') := by
  induction h with
  | nil => exact h'
  | keep _ ih => exact .keep ih
  | insert hn _ ih => exact .insert hn ih

theorem padded_refl {g : Grammar} : ∀ ts, Padded g ts ts
  | [] => .nil
  | _ :: ts => .keep (padded_refl ts)

/-- The padded terms have a forest if the terms have one. -/
theorem padded_forest {g g' : Grammar} (h : ∀ l e, HasAlt g l e → ∃ e', HasAlt g' l e' ∧ Padded g' e.terms e'.terms) {ts ns}
    (hf : IsForest g ts ns) : ∀ {ts'}, Padded g' ts ts' → ∃ ns', IsForest g' ts' ns' ∧ yield ns' = yield ns := by
  have ins : ∀ {n ts' ns'}, Derives g' (.nonterminal n) [] → IsForest g' ts' ns' →
      ∃ ns'', IsForest g' (.nonterminal n :: ts') ns'' ∧ yield ns'' = yield ns' := by
    rintro n ts' ns' ⟨⟨l, r⟩, hr, ⟨e, ha, hfe⟩, hy⟩ hn
    simp at hr; subst hr
    exact ⟨_, .nonterminal ha hfe hn, by simp only [yield, nodeYield]; simp at hy; simp [hy]⟩
  induction hf with
  | nil =>
    intro ts' hp
    generalize hts : ([] : List Term) = ts at hp
    induction hp with
    | nil => exact ⟨[], .nil, rfl⟩
    | keep _ _ => cases hts
    | insert hn _ ih =>
      obtain ⟨ns', h1, h2⟩ := ih hts
      obtain ⟨ns'', h3, h4⟩ := ins hn h1
      exact ⟨ns'', h3, h4.trans h2⟩
  | @terminal s ts ns _ ih =>
    intro ts' hp
    generalize hts : Term.terminal s :: ts = us at hp
    induction hp with
    | nil => cases hts
    | keep hp _ =>
      injection hts with e1 e2
      subst e1 e2
      obtain ⟨ns', h1, h2⟩ := ih hp
      exact ⟨_, .terminal h1, by simp only [yield, h2]⟩
    | insert hn _ ih =>
      obtain ⟨ns', h1, h2⟩ := ih hts
      obtain ⟨ns'', h3, h4⟩ := ins hn h1
      exact ⟨ns'', h3, h4.trans h2⟩
  | @nonterminal n e kids ts ns ha _ _ ihk iht =>
    intro ts' hp
    generalize hts : Term.nonterminal n :: ts = us at hp
    induction hp with
    | nil => cases hts
    | keep hp _ =>
      injection hts with e1 e2
      subst e1 e2
      obtain ⟨ns', h1, h2⟩ := iht hp
      obtain ⟨e', ha', hpe⟩ := h _ _ ha
      obtain ⟨kids', h3, h4⟩ := ihk hpe
      exact ⟨_, .nonterminal ha' h3 h1, by simp only [yield, nodeYield, h2, h4]⟩
    | insert hn _ ih =>
      obtain ⟨ns', h1, h2⟩ := ih hts
      obtain ⟨ns'', h3, h4⟩ := ins hn h1
      exact ⟨ns'', h3, h4.trans h2⟩

theorem padded_derives {g g' : Grammar} (h : ∀ l e, HasAlt g l e → ∃ e', HasAlt g' l e' ∧ Padded g' e.terms e'.terms) {S w}
    (hd : Derives g S w) : Derives g' S w := by
  obtain ⟨⟨l, r⟩, hr, ⟨e, ha, hf⟩, hy⟩ := hd
  obtain ⟨e', ha', hp⟩ := h _ _ ha
  obtain ⟨ns', h1, h2⟩ := padded_forest h hf hp
  exact ⟨⟨l, ns'⟩, hr, ⟨e', ha', h1⟩, h2.trans hy⟩

end Bnf
