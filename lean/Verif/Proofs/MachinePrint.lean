import Verif.Model.Machine
import Verif.Spec.Display
import Verif.Spec.TreeChance

/-! Bounded integers never overflow: printing trees, and generating. -/

set_option autoImplicit false

namespace Bnf
open Spec

theorem addW_some {max a b c : Nat} (h : addW max a b = some c) : c = a + b ∧ a + b ≤ max := by
  unfold addW at h
  split at h
  · rename_i h1
    exact ⟨by simpa using h.symm, h1⟩
  · exact absurd h (by simp)

theorem addW_one {max a : Nat} (h : a + 1 ≤ max) : addW max a 1 = some (a + 1) := by
  simp [addW, h]

theorem fmtColumnsW_eq {max : Nat} (set : FormatSet) (isLast : Bool) : ∀ {rest idx}, idx + rest ≤ max →
    fmtColumnsW max set isLast rest idx = some (fmtColumns set isLast rest idx) := by
  intro rest
  induction rest with
  | zero => intro idx _; rfl
  | succ rest ih =>
    intro idx h
    have h1 : addW max idx 1 = some (idx + 1) := addW_one (by omega)
    simp only [fmtColumnsW, h1, ih (show idx + 1 + rest ≤ max by omega), Option.map_some, Option.some.injEq]
    cases rest with
    | zero => simp [fmtColumns]
    | succ rest =>
      rw [if_neg (by omega)]
      rfl

mutual
theorem fmtNodeW_eq {max : Nat} : ∀ (n : ParseTreeNode) (set : FormatSet) (depth : Nat) (isLast : Bool), depth + nodeNesting n ≤ max →
    fmtNodeW max n set depth isLast = some (fmtNode n set depth isLast)
  | .terminal t, set, depth, isLast, h => by
    simp only [nodeNesting] at h
    simp only [fmtNodeW, fmtNode, fmtColumnsW_eq set isLast (show 0 + depth ≤ max by omega), fmtNodePrefix, Option.map_some]
  | .nonterminal lhs rhs, set, depth, isLast, h => by
    simp only [nodeNesting] at h
    have h1 : addW max depth 1 = some (depth + 1) := addW_one (by omega)
    simp only [fmtNodeW, fmtNode, fmtColumnsW_eq (set.insert depth) isLast (show 0 + depth ≤ max by omega), fmtNodePrefix, h1,
      fmtChildrenW_eq (max := max) rhs (set.insert depth) depth (by omega)]

theorem fmtChildrenW_eq {max : Nat} : ∀ (ns : List ParseTreeNode) (set : FormatSet) (depth : Nat), depth + 1 + kidsNesting ns ≤ max →
    fmtChildrenW max ns set depth (depth + 1) = some (fmtChildren ns set depth)
  | [], set, depth, _ => by simp [fmtChildrenW, fmtChildren]
  | n :: ns, set, depth, h => by
    simp only [kidsNesting] at h
    have h1 := fmtNodeW_eq (max := max) n (if ns.isEmpty then set.remove depth else set) (depth + 1) ns.isEmpty (by omega)
    simp only [fmtChildrenW, fmtChildren, h1]
    rw [fmtChildrenW_eq ns _ depth (by omega)]
end

mutual
theorem nesting_le_count : ∀ n : ParseTreeNode, nodeNesting n ≤ nodeCount n
  | .terminal t => by simp [nodeNesting]
  | .nonterminal lhs rhs => by
    have := kidsNesting_le_count rhs
    simp only [nodeNesting, nodeCount]
    omega
theorem kidsNesting_le_count : ∀ ns : List ParseTreeNode, kidsNesting ns ≤ nodesCount ns
  | [] => by simp [kidsNesting]
  | n :: ns => by
    have := nesting_le_count n
    have := kidsNesting_le_count ns
    simp only [kidsNesting, nodesCount]
    omega
end

mutual
theorem mermaidTreeW_eq {max : Nat} : ∀ (lhs : Term) (rhs : List ParseTreeNode) (count : Nat), count + nodesCount rhs ≤ max →
    mermaidTreeW max lhs rhs count = mermaidTree lhs rhs count ∧
      ∀ text c, mermaidTree lhs rhs count = some (text, c) → c = count + nodesCount rhs
  | .terminal _, rhs, count, _ => by simp [mermaidTreeW, mermaidTree]
  | .nonterminal lhs, rhs, count, h => by
    obtain ⟨h1, h2⟩ := mermaidChildrenW_eq rhs (escapeMermaidLabel lhs) count count h
    simp only [mermaidTreeW, mermaidTree, h1]
    cases hc : mermaidChildren rhs (escapeMermaidLabel lhs) count count with
    | none => simp
    | some r =>
      simp only [Option.some.injEq, Prod.mk.injEq, true_and]
      rintro text c ⟨_, rfl⟩
      exact h2 r.1 r.2 hc

theorem mermaidChildrenW_eq {max : Nat} : ∀ (ns : List ParseTreeNode) (lhs : Str) (i count : Nat), count + nodesCount ns ≤ max →
    mermaidChildrenW max ns lhs i count = mermaidChildren ns lhs i count ∧
      ∀ text c, mermaidChildren ns lhs i count = some (text, c) → c = count + nodesCount ns
  | [], lhs, i, count, _ => by simp [mermaidChildrenW, mermaidChildren, nodesCount]
  | .terminal t :: ns, lhs, i, count, h => by
    simp only [nodesCount, nodeCount] at h ⊢
    have h0 : addW max count 1 = some (count + 1) := addW_one (by omega)
    obtain ⟨h1, h2⟩ := mermaidChildrenW_eq (max := max) ns lhs i (count + 1) (by omega)
    simp only [mermaidChildrenW, mermaidChildren, h0, h1]
    cases hc : mermaidChildren ns lhs i (count + 1) with
    | none => simp
    | some r =>
      simp only [Option.some.injEq, Prod.mk.injEq, true_and]
      rintro text c ⟨_, rfl⟩
      rw [h2 r.1 r.2 hc]
      omega
  | .nonterminal (.terminal _) _ :: ns, lhs, i, count, h => by simp [mermaidChildrenW, mermaidChildren]
  | .nonterminal (.nonterminal n) rhs :: ns, lhs, i, count, h => by
    simp only [nodesCount, nodeCount] at h ⊢
    have h0 : addW max count 1 = some (count + 1) := addW_one (by omega)
    obtain ⟨h1, h2⟩ := mermaidTreeW_eq (max := max) (.nonterminal n) rhs (count + 1) (by omega)
    simp only [mermaidChildrenW, mermaidChildren, h0, h1]
    cases hc : mermaidTree (.nonterminal n) rhs (count + 1) with
    | none => simp
    | some r =>
      have e := h2 r.1 r.2 hc
      obtain ⟨h3, h4⟩ := mermaidChildrenW_eq (max := max) ns lhs i r.2 (by omega)
      simp only [h3]
      cases hd : mermaidChildren ns lhs i r.2 with
      | none => simp
      | some r' =>
        simp only [Option.some.injEq, Prod.mk.injEq, true_and]
        rintro text c ⟨_, rfl⟩
        rw [h4 r'.1 r'.2 hd]
        omega
end

/-! Conversely, what does not overflow fits. -/

mutual
theorem fmtNodeW_fits {max : Nat} : ∀ (n : ParseTreeNode) (set : FormatSet) (depth : Nat) (isLast : Bool) (r : Str × FormatSet), depth ≤ max →
    fmtNodeW max n set depth isLast = some r → depth + nodeNesting n ≤ max
  | .terminal t, set, depth, isLast, r, h, _ => by simpa [nodeNesting] using h
  | .nonterminal lhs rhs, set, depth, isLast, r, h, hr => by
    simp only [fmtNodeW] at hr
    cases hp : fmtColumnsW max (set.insert depth) isLast depth 0 with
    | none => simp [hp] at hr
    | some p =>
      cases ha : addW max depth 1 with
      | none => simp [hp, ha] at hr
      | some d =>
        obtain ⟨rfl, h1⟩ := addW_some ha
        cases hk : fmtChildrenW max rhs (set.insert depth) depth (depth + 1) with
        | none => simp [hp, ha, hk] at hr
        | some k =>
          have := fmtChildrenW_fits rhs (set.insert depth) depth k h1 hk
          simp only [nodeNesting]
          omega

theorem fmtChildrenW_fits {max : Nat} : ∀ (ns : List ParseTreeNode) (set : FormatSet) (depth : Nat) (r : Str × FormatSet), depth + 1 ≤ max →
    fmtChildrenW max ns set depth (depth + 1) = some r → depth + 1 + kidsNesting ns ≤ max
  | [], set, depth, r, h, _ => by simpa [kidsNesting] using h
  | n :: ns, set, depth, r, h, hr => by
    simp only [fmtChildrenW] at hr
    cases h1 : fmtNodeW max n (if ns.isEmpty then set.remove depth else set) (depth + 1) ns.isEmpty with
    | none => rw [h1] at hr; simp at hr
    | some a =>
      cases h2 : fmtChildrenW max ns a.2 depth (depth + 1) with
      | none => rw [h1] at hr; simp [h2] at hr
      | some b =>
        have i1 := fmtNodeW_fits n _ _ _ a h h1
        have i2 := fmtChildrenW_fits ns _ depth b h h2
        simp only [kidsNesting]
        omega
end

mutual
theorem mermaidTreeW_fits {max : Nat} : ∀ (lhs : Term) (rhs : List ParseTreeNode) (count : Nat) (r : Str × Nat), count ≤ max →
    mermaidTreeW max lhs rhs count = some r → r.2 = count + nodesCount rhs ∧ r.2 ≤ max
  | .terminal _, rhs, count, r, _, hr => by simp [mermaidTreeW] at hr
  | .nonterminal lhs, rhs, count, r, h, hr => by
    simp only [mermaidTreeW] at hr
    cases hc : mermaidChildrenW max rhs (escapeMermaidLabel lhs) count count with
    | none => simp [hc] at hr
    | some k =>
      have := mermaidChildrenW_fits rhs _ _ count k h hc
      simp only [hc, Option.some.injEq] at hr
      subst hr
      exact this

theorem mermaidChildrenW_fits {max : Nat} : ∀ (ns : List ParseTreeNode) (lhs : Str) (i count : Nat) (r : Str × Nat), count ≤ max →
    mermaidChildrenW max ns lhs i count = some r → r.2 = count + nodesCount ns ∧ r.2 ≤ max
  | [], lhs, i, count, r, h, hr => by
    simp only [mermaidChildrenW, Option.some.injEq] at hr
    subst hr
    exact ⟨by simp [nodesCount], h⟩
  | .terminal t :: ns, lhs, i, count, r, h, hr => by
    simp only [mermaidChildrenW] at hr
    cases ha : addW max count 1 with
    | none => simp [ha] at hr
    | some c =>
      obtain ⟨rfl, h1⟩ := addW_some ha
      cases hc : mermaidChildrenW max ns lhs i (count + 1) with
      | none => simp [ha, hc] at hr
      | some k =>
        have := mermaidChildrenW_fits ns lhs i _ k h1 hc
        simp only [ha, hc, Option.some.injEq] at hr
        subst hr
        simp only [nodesCount, nodeCount]
        omega
  | .nonterminal (.terminal _) _ :: ns, lhs, i, count, r, h, hr => by simp [mermaidChildrenW] at hr
  | .nonterminal (.nonterminal n) rhs :: ns, lhs, i, count, r, h, hr => by
    simp only [mermaidChildrenW] at hr
    cases ha : addW max count 1 with
    | none => simp [ha] at hr
    | some c =>
      obtain ⟨rfl, h1⟩ := addW_some ha
      cases hc : mermaidTreeW max (.nonterminal n) rhs (count + 1) with
      | none => simp [ha, hc] at hr
      | some k =>
        have i1 := mermaidTreeW_fits (.nonterminal n) rhs _ k h1 hc
        cases hd : mermaidChildrenW max ns lhs i k.2 with
        | none => simp [ha, hc, hd] at hr
        | some l =>
          have i2 := mermaidChildrenW_fits ns lhs i k.2 l i1.2 hd
          simp only [ha, hc, hd, Option.some.injEq] at hr
          subst hr
          simp only [nodesCount, nodeCount]
          omega
end

theorem evalTermsW_eq {σ : Type} {max depth : Nat} {trav : Str → σ → GenRes σ} {travW : Nat → Str → σ → GenRes σ} (h : depth + 1 ≤ max)
    (ht : ∀ nt st, travW (depth + 1) nt st = trav nt st) : ∀ (ts : List Term) (r : Str) (st : σ),
    evalTermsW max depth travW ts r st = evalTerms trav ts r st := by
  intro ts
  induction ts with
  | nil => intro r st; rfl
  | cons T ts ih =>
    intro r st
    cases T with
    | terminal t => exact ih _ _
    | nonterminal nt =>
      simp only [evalTermsW, evalTerms, addW_one h, ht]
      cases trav nt st with
      | fuel => rfl
      | panic => rfl
      | done x st' =>
        cases x with
        | error e => rfl
        | ok s => exact ih _ _

/-- With room for as many numbers as calls are nested. -/
theorem traverseW_eq {σ : Type} {max : Nat} (g : Grammar) (S : Strategy σ) (f : Callback σ) : ∀ (n : Nat) (ident : Str) (depth : Nat) (st : σ),
    depth + n ≤ max → traverseW max g S f n ident depth st = traverse g S f n ident depth st := by
  intro n
  induction n with
  | zero => intro ident depth st _; rfl
  | succ n ih =>
    intro ident depth st h
    simp only [traverseW, traverse]
    cases findProduction ident g.productions 0 with
    | none => rfl
    | some r =>
      simp only
      split
      · rfl
      · cases S.choose st r.1 r.2 depth with
        | mk c st' =>
          cases c with
          | panic => rfl
          | none => rfl
          | expr e =>
            simp only
            rw [evalTermsW_eq (trav := fun nt st => traverse g S f n nt (depth + 1) st) (by omega)
              (fun nt st => ih nt (depth + 1) st (by omega))]
            cases evalTerms (fun nt st => traverse g S f n nt (depth + 1) st) e.terms [] st' with
            | fuel => rfl
            | panic => rfl
            | done x st2 =>
              cases x with
              | error e => rfl
              | ok s =>
                simp only
                cases f st2 ident s with
                | mk b st3 =>
                  cases b with
                  | true => rfl
                  | false => exact ih _ _ _ (by omega)

end Bnf
