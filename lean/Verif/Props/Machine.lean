import Verif.Proofs.Machine
import Verif.Proofs.MachineText
import Verif.Proofs.MachineFits
import Verif.Proofs.MachineNames

/-!
# Property C112: machine integers do not overflow

`max` is the largest `usize`.  The functions ending in `W` (`Model/Machine`) fail as soon as an addition exceeds it.  All the sizes that are compared
with `max` below are sizes of things in memory (a text, a tree, the stack), which are smaller than `usize::MAX`.
-/

set_option autoImplicit false

namespace Bnf.Props
open Bnf Spec

/-- C112: opening an iterator adds nothing that could overflow, whatever the input. -/
theorem C112_opening (max : Nat) (p : GrammarParser) (input : Str) (start : Option Term) :
    ParseTreeIter.newW max p input start = ParseTreeIter.new p input start := newW_eq p input start

/-- C112: no call of `next()` overflows, on any grammar and in any state that calls can lead to, if the length of the input is a `usize`.  So the
bounded parser does exactly what the unbounded one does. -/
theorem C112_parsing {max : Nat} {g S input it it'} (hmax : byteLen input ≤ max) (ho : Opened g S input it) (hr : Reach it it') (fuel : Nat) :
    it'.nextW max fuel = it'.next fuel := by
  have hi := hr.inv ho.inv.1
  unfold ParseTreeIter.nextW ParseTreeIter.next
  rw [earleyW_eq (max := max) (by rw [hi.pg]; exact PGOk.newUnchecked g) hmax fuel (S := S) (by rw [hi.pg]; exact hi.inv)]
  rfl

/-- C112: the bound is needed: whatever calls came before, the bounded parser only returns a tree if the length of the input is within the bound. -/
theorem C112_parsing_needs {max : Nat} {g S input it it' it'' fuel t} (ho : Opened g S input it) (hr : ReachW max it it')
    (hn : it'.nextW max fuel = .returned (some t, it'')) : byteLen input ≤ max :=
  ((hr.fits ho.fits).next hn).2 rfl

/-- C112: the counter of generated names does not overflow if the length of the text is a `usize`. -/
theorem C112_reading {max : Nat} {F : Format} (hF : Supported F) {s : Str} (h : s.length ≤ max) :
    Grammar.parseFromW max F s = Grammar.parseFrom F s := parseFromW_eq hF.regular h

/-- C112: exactly: the counter overflows if and only if one of the generated names has a number that is not smaller than `max`; otherwise the result
is that of unbounded integers. -/
theorem C112_reading_exact {max : Nat} {F : Format} (hF : Supported F) {s : Str} {pg} (ht : GrammarText F pg s) :
    (Grammar.parseFromW max F s = none ↔ ∃ k, Taken pg (numbered k) ∧ max ≤ k) ∧
    ((¬ ∃ k, Taken pg (numbered k) ∧ max ≤ k) → Grammar.parseFromW max F s = Grammar.parseFrom F s) := parseFromW_exact hF.regular ht

/-- C112: the depths in the drawing of a tree overflow if and only if the nesting of the tree is not a `usize`. -/
theorem C112_display (max : Nat) (t : ParseTree) : t.displayW max = if treeNesting t ≤ max then some t.display else none := by
  unfold ParseTree.displayW ParseTree.display
  split
  · rename_i h
    rw [fmtNodeW_eq _ _ _ _ (by simpa [treeNesting] using h)]
    rfl
  · rename_i h
    cases hf : fmtNodeW max (.nonterminal t.lhs t.rhs) [] 0 true with
    | none => rfl
    | some r => exact absurd (by simpa [treeNesting] using fmtNodeW_fits _ _ _ _ r (Nat.zero_le _) hf) h

/-- C112: the node numbers of the Mermaid text overflow if and only if the number of nodes below the root is not a `usize`; otherwise this number
is the largest one. -/
theorem C112_mermaid (max : Nat) (t : ParseTree) : t.mermaidW max = (if nodesCount t.rhs ≤ max then t.mermaid else none) ∧
    ∀ text last, mermaidTreeW max t.lhs t.rhs 0 = some (text, last) → last = nodesCount t.rhs := by
  refine ⟨?_, fun text last hm => by simpa using (mermaidTreeW_fits _ _ _ _ (Nat.zero_le _) hm).1⟩
  unfold ParseTree.mermaidW ParseTree.mermaid
  split
  · rw [(mermaidTreeW_eq (max := max) t.lhs t.rhs 0 (by omega)).1]
  · rename_i h
    cases hf : mermaidTreeW max t.lhs t.rhs 0 with
    | none => rfl
    | some r =>
      have := mermaidTreeW_fits _ _ _ _ (Nat.zero_le _) hf
      omega

/-- C112: the depth handed to the strategies does not overflow as long as fewer than `max` calls are nested, for all strategies and callbacks. -/
theorem C112_generating {σ : Type} {max : Nat} (g : Grammar) (S : Strategy σ) (f : Callback σ) {fuel : Nat} (h : fuel ≤ max) (st : σ) :
    g.generateWithW max S f fuel st = g.generateWith S f fuel st := by
  unfold Grammar.generateWithW Grammar.generateWith
  cases g.terminates with
  | none => rfl
  | some b =>
    cases b with
    | false => rfl
    | true =>
      cases g.productions with
      | nil => rfl
      | cons p ps =>
        cases hp : p.lhs with
        | terminal u => simp only [hp]
        | nonterminal nt =>
          simp only [hp]
          exact traverseW_eq g S f fuel nt 0 st (by omega)

/-- C112: the bounded code hands no depth above `max` to a strategy: what a strategy does on larger depths does not matter. -/
theorem C112_depths {σ : Type} {max : Nat} (g : Grammar) {S S' : Strategy σ} (f : Callback σ)
    (hS : ∀ st addr p d, d ≤ max → S.choose st addr p d = S'.choose st addr p d) (fuel : Nat) (st : σ) :
    g.generateWithW max S f fuel st = g.generateWithW max S' f fuel st := by
  unfold Grammar.generateWithW
  cases g.terminates with
  | none => rfl
  | some b =>
    cases b with
    | false => rfl
    | true =>
      cases g.productions with
      | nil => rfl
      | cons p ps =>
        cases hp : p.lhs with
        | terminal u => simp only [hp]
        | nonterminal nt =>
          simp only [hp]
          exact traverseW_congr g f hS fuel nt 0 st (Nat.zero_le _)

/-! The checks are real: with too small a `max` the additions do overflow.  (`<a> ::= 'xy' | <a> 'z'`) -/

def gTiny : Grammar := ⟨[⟨.nonterminal ['a'], [⟨[.terminal ['x', 'y']]⟩, ⟨[.nonterminal ['a'], .terminal ['z']]⟩]⟩]⟩
def tTiny : ParseTree := ⟨.nonterminal ['a'], [.nonterminal (.nonterminal ['a']) [.terminal ['x', 'y']], .terminal ['z']]⟩

example : ∃ it, Opened gTiny (.nonterminal ['a']) ['x', 'y', 'z'] it ∧ (∃ it', it.nextW 3 100 = .returned (some tTiny, it')) ∧
    it.nextW 1 100 = .panic :=
  ⟨_, .deprecatedStarting rfl, ⟨_, rfl⟩, rfl⟩
example : tTiny.mermaidW 3 = tTiny.mermaid ∧ tTiny.mermaidW 2 = none := by
  simp [ParseTree.mermaidW, ParseTree.mermaid, tTiny, mermaidTreeW, mermaidChildrenW, mermaidTree, mermaidChildren, addW]
example : tTiny.displayW 2 = some tTiny.display ∧ tTiny.displayW 1 = none := by
  constructor <;> rw [C112_display] <;> decide +kernel
example : (Grammar.parseFromW 1 BNF "<a> ::= ('x') ('y')".toList).isNone = true ∧
    (Grammar.parseFromW 2 BNF "<a> ::= ('x') ('y')".toList).isSome = true := by decide +kernel

/-! A strategy that takes the last alternative up to depth 0 and the first one below: nested once. -/

def deepOnce : Strategy Unit := ⟨fun st _ p depth => ((if depth = 0 then p.rhs.getLast? else p.rhs.head?).elim .none .expr, st)⟩

example : gTiny.generateWithW 1 deepOnce (fun st _ _ => (true, st)) 5 () = .done (.ok ['x', 'y', 'z']) () ∧
    gTiny.generateWithW 0 deepOnce (fun st _ _ => (true, st)) 5 () = .panic ∧
    gTiny.generateWith deepOnce (fun st _ _ => (true, st)) 5 () = .done (.ok ['x', 'y', 'z']) () :=
  ⟨rfl, rfl, rfl⟩

end Bnf.Props
