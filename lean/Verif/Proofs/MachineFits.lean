import Verif.Proofs.MachinePrint
import Verif.Proofs.Machine
import Verif.Spec.Machine

/-! With bounded integers, an input that is parsed has a length within the bound. -/

set_option autoImplicit false

namespace Bnf
open Spec

/-- All ranges are over the input and their lengths are within the bound. -/
def RangesFit (max : Nat) (input : Str) (t : TravTree) : Prop := ∀ tr ∈ t.arena, tr.range.input = input ∧ tr.range.len ≤ max

theorem RangesFit.get {max input t id tr} (h : RangesFit max input t) (hg : t.get id = some tr) : tr.range.input = input ∧ tr.range.len ≤ max :=
  h tr (List.mem_of_getElem? hg)

theorem RangesFit.push {max input} {t : TravTree} (h : RangesFit max input t) {tr : Traversal} (hi : tr.range.input = input) (hl : tr.range.len ≤ max) (r e) :
    RangesFit max input ⟨t.arena ++ [tr], r, e⟩ := by
  intro x hx
  rcases List.mem_append.1 hx with hx | hx
  · exact h x hx
  · rw [List.mem_singleton.1 hx]
    exact ⟨hi, hl⟩

theorem RangesFit.predict {max input t range p b id t'} (h : RangesFit max input t) (hi : range.input = input)
    (hp : t.predictW max range p b = some (id, t')) : RangesFit max input t' := by
  unfold TravTree.predictW at hp
  cases h1 : range.totalLenW max with
  | none => simp [h1] at hp
  | some total =>
    simp only [h1] at hp
    cases h2 : t.roots.get (p.id, total) with
    | some i =>
      simp only [h2, Option.some.injEq, Prod.mk.injEq] at hp
      exact hp.2 ▸ h
    | none =>
      simp only [h2] at hp
      cases h3 : range.afterW max with
      | none => simp [h3] at hp
      | some r =>
        simp only [h3, Option.some.injEq, Prod.mk.injEq] at hp
        unfold InputRange.afterW at h3
        cases h4 : addW max range.start range.len with
        | none => simp [h4] at h3
        | some i =>
          simp only [h4, Option.map_some, Option.some.injEq] at h3
          rw [← hp.2]
          exact h.push (by rw [← h3]; exact hi) (by rw [← h3]; exact Nat.zero_le _) _ _

theorem RangesFit.predictAll {max input range b} (hi : range.input = input) : ∀ (ps : List FlatProd) {t q r}, RangesFit max input t →
    predictAllW max range b ps t q = some r → RangesFit max input r.1 := by
  intro ps
  induction ps with
  | nil =>
    intro t q r h hr
    simp only [predictAllW, Option.some.injEq] at hr
    exact hr ▸ h
  | cons p ps ih =>
    intro t q r h hr
    simp only [predictAllW] at hr
    cases h1 : t.predictW max range p b with
    | none => simp [h1] at hr
    | some x =>
      simp only [h1] at hr
      exact ih (h.predict hi h1) hr

theorem advanceByW_fits {max : Nat} {r r' : InputRange} {step : Nat} (h : r.advanceByW max step = some r') :
    r'.input = r.input ∧ r'.len ≤ max := by
  unfold InputRange.advanceByW at h
  split at h
  · exact absurd h (by simp)
  · cases h1 : addW max r.len step with
    | none => simp [h1] at h
    | some l =>
      obtain ⟨rfl, hl⟩ := addW_some h1
      simp only [h1, Option.map_some, Option.some.injEq] at h
      subst h
      exact ⟨rfl, by dsimp only; omega⟩

theorem RangesFit.matchTerm {max input t k m id t'} (h : RangesFit max input t) (hp : t.matchTermW max k m = some (id, t')) : RangesFit max input t' := by
  unfold TravTree.matchTermW at hp
  cases h1 : t.get k with
  | none => simp [h1] at hp
  | some parent =>
    simp only [h1] at hp
    cases h2 : t.matchRangeW max parent m with
    | none => simp [h2] at hp
    | some range =>
      simp only [h2] at hp
      have hr : range.input = parent.range.input ∧ range.len ≤ max := by
        cases m with
        | terminal s => exact advanceByW_fits h2
        | nonterminal c =>
          simp only [TravTree.matchRangeW] at h2
          cases hc : t.get c with
          | none => simp [hc] at h2
          | some tc =>
            simp only [hc] at h2
            exact advanceByW_fits h2
      cases h3 : parent.unmatched with
      | nil => simp [h3] at hp
      | cons u us =>
        simp only [h3] at hp
        cases h4 : t.edges.get ⟨m, parent.id⟩ with
        | some i =>
          simp only [h4, Option.some.injEq, Prod.mk.injEq] at hp
          exact hp.2 ▸ h
        | none =>
          simp only [h4, Option.some.injEq, Prod.mk.injEq] at hp
          rw [← hp.2]
          exact h.push (hr.1.trans (h.get h1).1) hr.2 _ _

theorem RangesFit.matchAll {max input} : ∀ (ms : List (Nat × TermMatch)) {t q r}, RangesFit max input t → matchAllW max ms t q = some r →
    RangesFit max input r.1 := by
  intro ms
  induction ms with
  | nil =>
    intro t q r h hr
    simp only [matchAllW, Option.some.injEq] at hr
    exact hr ▸ h
  | cons p ms ih =>
    intro t q r h hr
    obtain ⟨k, m⟩ := p
    simp only [matchAllW] at hr
    cases h1 : t.matchTermW max k m with
    | none => simp [h1] at hr
    | some x =>
      simp only [h1] at hr
      exact ih (h.matchTerm h1) hr

theorem RangesFit.round {max input pg st id st' b} (h : RangesFit max input st.tree) (hr : earleyRoundW max pg st id = some (st', b)) :
    RangesFit max input st'.tree ∧ (b = true → byteLen input ≤ max) := by
  unfold earleyRoundW at hr
  cases h1 : st.tree.get id with
  | none => simp [h1] at hr
  | some tr =>
    obtain ⟨hi, hl⟩ := h.get h1
    simp only [h1] at hr
    cases h2 : tr.nextUnmatched with
    | none =>
      simp only [h2] at hr
      cases h3 : pg.prodById tr.prodId with
      | none => simp [h3] at hr
      | some prod =>
        simp only [h3] at hr
        cases h4 : st.completions.insertW max tr prod.lhs with
        | none => simp [h4] at hr
        | some c =>
          simp only [h4] at hr
          cases h5 : matchAllW max ((c.getIncomplete prod.lhs tr).map fun i => (i, TermMatch.nonterminal id)) st.tree st.queue with
          | none => simp [h5] at hr
          | some r =>
            simp only [h5, Option.some.injEq, Prod.mk.injEq] at hr
            obtain ⟨rfl, rfl⟩ := hr
            refine ⟨h.matchAll _ h5, fun hb => ?_⟩
            simp only [InputRange.isComplete, Bool.and_eq_true, beq_iff_eq] at hb
            rw [← hi, ← hb.2.2]
            exact hl
    | some T =>
      cases T with
      | nonterminal n =>
        simp only [h2] at hr
        cases h3 : pg.prodById tr.prodId with
        | none => simp [h3] at hr
        | some prod =>
          simp only [h3] at hr
          cases h4 : st.completions.insertW max tr prod.lhs with
          | none => simp [h4] at hr
          | some c =>
            simp only [h4] at hr
            cases h5 : pg.prodsFor (.nonterminal n) with
            | none => simp [h5] at hr
            | some prods =>
              simp only [h5] at hr
              cases h6 : predictAllW max tr.range false prods st.tree st.queue with
              | none => simp [h6] at hr
              | some r =>
                simp only [h6] at hr
                cases h7 : c.getCompleteW max (.nonterminal n) tr.range with
                | none => simp [h7] at hr
                | some done =>
                  simp only [h7] at hr
                  cases h8 : matchAllW max (done.map fun c => (id, TermMatch.nonterminal c)) r.1 r.2 with
                  | none => simp [h8] at hr
                  | some r' =>
                    simp only [h8, Option.some.injEq, Prod.mk.injEq] at hr
                    obtain ⟨rfl, rfl⟩ := hr
                    exact ⟨RangesFit.matchAll _ (h.predictAll hi _ h6) h8, by simp⟩
      | terminal s =>
        simp only [h2] at hr
        cases h3 : tr.range.nextW max with
        | none => simp [h3] at hr
        | some rest =>
          simp only [h3] at hr
          split at hr
          · cases h5 : matchAllW max [(id, TermMatch.terminal s)] st.tree st.queue with
            | none => simp [h5] at hr
            | some r =>
              simp only [h5, Option.some.injEq, Prod.mk.injEq] at hr
              obtain ⟨rfl, rfl⟩ := hr
              exact ⟨h.matchAll _ h5, by simp⟩
          · simp only [Option.some.injEq, Prod.mk.injEq] at hr
            obtain ⟨rfl, rfl⟩ := hr
            exact ⟨h, by simp⟩

theorem RangesFit.earley {max input pg} : ∀ (fuel : Nat) {st r}, RangesFit max input st.tree → earleyW max pg fuel st = .returned r →
    RangesFit max input r.2.tree ∧ (r.1.isSome = true → byteLen input ≤ max) := by
  intro fuel
  induction fuel with
  | zero => intro st r _ hr; simp [earleyW] at hr
  | succ fuel ih =>
    intro st r h hr
    simp only [earleyW] at hr
    cases hq : st.queue.queue with
    | nil =>
      simp only [hq, Outcome.returned.injEq] at hr
      subst hr
      exact ⟨h, by simp⟩
    | cons id rest =>
      simp only [hq] at hr
      cases h1 : earleyRoundW max pg { st with queue := { st.queue with queue := rest } } id with
      | none => simp [h1] at hr
      | some x =>
        obtain ⟨st', b⟩ := x
        have h2 := RangesFit.round (st := { st with queue := { st.queue with queue := rest } }) h h1
        cases b with
        | true =>
          simp only [h1, Outcome.returned.injEq] at hr
          subst hr
          exact ⟨h2.1, fun _ => h2.2 rfl⟩
        | false =>
          simp only [h1] at hr
          exact ih h2.1 hr

theorem RangesFit.next {max input fuel} {it it' : ParseTreeIter} {r} (h : RangesFit max input it.st.tree) (hn : it.nextW max fuel = .returned (r, it')) :
    RangesFit max input it'.st.tree ∧ (r.isSome = true → byteLen input ≤ max) := by
  unfold ParseTreeIter.nextW at hn
  cases h1 : earleyW max it.parser.parseGrammar fuel it.st with
  | outOfFuel => simp [h1] at hn
  | panic => simp [h1] at hn
  | returned x =>
    obtain ⟨o, st⟩ := x
    obtain ⟨h2, h3⟩ := RangesFit.earley fuel h h1
    cases o with
    | none =>
      simp only [h1, Outcome.returned.injEq, Prod.mk.injEq] at hn
      obtain ⟨rfl, rfl⟩ := hn
      exact ⟨h2, by simp⟩
    | some id =>
      simp only [h1] at hn
      cases h4 : parseTree st.tree it.parser.parseGrammar (st.tree.arena.length + 1) id with
      | none => simp [h4] at hn
      | some t =>
        simp only [h4, Outcome.returned.injEq, Prod.mk.injEq] at hn
        obtain ⟨rfl, rfl⟩ := hn
        exact ⟨h2, fun _ => h3 rfl⟩

theorem RangesFit.new {max p input start it} (h : ParseTreeIter.newW max p input start = some it) : RangesFit max input it.st.tree := by
  unfold ParseTreeIter.newW at h
  cases h1 : p.parseGrammar.prodsFor (start.getD p.startingTerm) with
  | none => simp [h1] at h
  | some prods =>
    simp only [h1] at h
    cases h2 : predictAllW max (InputRange.new input) true prods ⟨[], [], []⟩ ⟨[], []⟩ with
    | none => simp [h2] at h
    | some r =>
      simp only [h2, Option.some.injEq] at h
      subst h
      exact RangesFit.predictAll rfl prods (fun tr htr => absurd htr (by simp)) h2

theorem Spec.Opened.fits {max g S input it} (h : Opened g S input it) : RangesFit max input it.st.tree := by
  have key : ∀ {p s}, ParseTreeIter.new p input s = some it → RangesFit max input it.st.tree := fun h => RangesFit.new (by rw [newW_eq]; exact h)
  cases h with
  | parserStarting hb hi => exact key hi
  | parser hb hs hi => exact key hi
  | deprecatedStarting hi =>
    unfold Grammar.parseInputStartingWithDeprecated at hi
    split at hi
    · cases hi
    · exact key hi
  | deprecated hs hi =>
    unfold Grammar.parseInputDeprecated at hi
    split at hi
    · cases hi
    · exact key hi

theorem Spec.ReachW.fits {max input it it'} (h : ReachW max it it') (hf : RangesFit max input it.st.tree) : RangesFit max input it'.st.tree := by
  induction h with
  | refl => exact hf
  | step hn _ ih => exact ih (hf.next hn).1

theorem evalTermsW_congr {σ : Type} {max depth : Nat} {trav trav' : Nat → Str → σ → GenRes σ}
    (ht : ∀ d, d ≤ max → ∀ nt st, trav d nt st = trav' d nt st) : ∀ (ts : List Term) (r : Str) (st : σ),
    evalTermsW max depth trav ts r st = evalTermsW max depth trav' ts r st := by
  intro ts
  induction ts with
  | nil => intro r st; rfl
  | cons T ts ih =>
    intro r st
    cases T with
    | terminal t => exact ih _ _
    | nonterminal nt =>
      simp only [evalTermsW]
      cases ha : addW max depth 1 with
      | none => rfl
      | some d =>
        obtain ⟨rfl, hd⟩ := addW_some ha
        simp only [ht _ hd]
        cases trav' (depth + 1) nt st with
        | fuel => rfl
        | panic => rfl
        | done x st' =>
          cases x with
          | error e => rfl
          | ok s => exact ih _ _

theorem traverseW_congr {σ : Type} {max : Nat} (g : Grammar) {S S' : Strategy σ} (f : Callback σ)
    (hS : ∀ st addr p d, d ≤ max → S.choose st addr p d = S'.choose st addr p d) : ∀ (n : Nat) (ident : Str) (depth : Nat) (st : σ),
    depth ≤ max → traverseW max g S f n ident depth st = traverseW max g S' f n ident depth st := by
  intro n
  induction n with
  | zero => intro ident depth st _; rfl
  | succ n ih =>
    intro ident depth st h
    simp only [traverseW]
    cases findProduction ident g.productions 0 with
    | none => rfl
    | some r =>
      simp only
      split
      · rfl
      · rw [hS st r.1 r.2 depth h]
        cases S'.choose st r.1 r.2 depth with
        | mk c st' =>
          cases c with
          | panic => rfl
          | none => rfl
          | expr e =>
            simp only
            rw [evalTermsW_congr (trav' := fun below nt st => traverseW max g S' f n nt below st) (fun d hd nt st => ih nt d st hd)]
            cases evalTermsW max depth (fun below nt st => traverseW max g S' f n nt below st) e.terms [] st' with
            | fuel => rfl
            | panic => rfl
            | done x st2 =>
              cases x with
              | error e => rfl
              | ok s =>
                simp only
                cases f st2 ident s with
                | mk b st3 =>
                  cases b with
                  | true => rfl
                  | false => exact ih _ _ _ h

end Bnf
