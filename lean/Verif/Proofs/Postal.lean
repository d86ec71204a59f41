import Verif.Spec.Postal
import Verif.Spec.TreeChance
import Verif.Proofs.AcyclicCheck
import Mathlib.Tactic.Ring
import Mathlib.Tactic.NormNum
import Mathlib.Data.List.Nodup

/-!
# Trees of the postal grammar

Helper lemmas for C116.
-/

set_option autoImplicit false

namespace Bnf.Spec.Postal
open Bnf Spec

set_option maxRecDepth 20000

theorem acyclic : Acyclic grammar := acyclic_of_check [nOptSuffixPart, nOptAptNum]
  (grammar.productions.filterMap fun p => match p.lhs with | .nonterminal n => some n | _ => none) (by decide +kernel) (by decide +kernel)

/-! ## Names -/

def node (n : Str) (kids : List ParseTreeNode) : ParseTreeNode := .nonterminal (.nonterminal n) kids

def letter (c : Char) : ParseTreeNode := node nLetter [.terminal [c]]

/-- `<name-word>` for these letters. -/
def word : Str → ParseTreeNode
  | [] => node nNameWord []
  | [c] => node nNameWord [letter c]
  | c :: d :: r => node nNameWord [letter c, word (d :: r)]

/-- `<personal-part>` that is a first name. -/
def personal (p : Str) : ParseTreeNode := node nPersonalPart [node nFirstName [word p]]

/-- `<name-part>` with the first names `p`, `r…` and the last name `c`. -/
def name (c : Char) : Str → List Str → ParseTreeNode
  | p, [] => node nNamePart [personal p, node nLastName [word [c]], node nOptSuffixPart [.terminal []], node nEOL [.terminal [';']]]
  | p, q :: r => node nNamePart [personal p, name c q r]

theorem word_yield (p : Str) : nodeYield (word p) = p := by
  induction p with
  | nil => simp [word, node, nodeYield, Spec.yield]
  | cons c p ih =>
    cases p with
    | nil => simp [word, node, letter, nodeYield, Spec.yield]
    | cons d r =>
      simp only [word, node, letter, nodeYield, Spec.yield, ih]
      simp

theorem personal_yield (p : Str) : nodeYield (personal p) = p := by
  simp [personal, node, nodeYield, Spec.yield, word_yield]

theorem name_yield (c : Char) (p : Str) (r : List Str) : nodeYield (name c p r) = p ++ r.flatten ++ [c, ';'] := by
  induction r generalizing p with
  | nil => simp [name, node, nodeYield, Spec.yield, word_yield, personal_yield]
  | cons q r ih => simp [name, node, nodeYield, Spec.yield, personal_yield, ih]

theorem personal_inj {p q : Str} (h : personal p = personal q) : p = q := by
  rw [← personal_yield p, h, personal_yield]

theorem name_inj {c : Char} {p q : Str} {r s : List Str} (h : name c p r = name c q s) : p = q ∧ r = s := by
  induction r generalizing p q s with
  | nil =>
    cases s with
    | nil =>
      simp only [name, node, ParseTreeNode.nonterminal.injEq, List.cons.injEq] at h
      exact ⟨personal_inj h.2.1, rfl⟩
    | cons a s => simp [name, node] at h
  | cons a r ih =>
    cases s with
    | nil => simp [name, node] at h
    | cons b s =>
      simp only [name, node, ParseTreeNode.nonterminal.injEq, List.cons.injEq, and_true, true_and] at h
      obtain ⟨h1, h2⟩ := ih h.2
      exact ⟨personal_inj h.1, by rw [h1, h2]⟩

/-! ## They are derivations -/

theorem alt_of {n : Str} {e : Expression} (h : ∃ p ∈ grammar.productions, p.lhs = .nonterminal n ∧ e ∈ p.rhs) : HasAlt grammar (.nonterminal n) e := h

theorem letter_alt : ∀ c ∈ letters, HasAlt grammar (.nonterminal nLetter) ⟨[.terminal [c]]⟩ := by
  intro c hc
  exact ⟨⟨.nonterminal nLetter, oneOf letters⟩, by decide +kernel, rfl, List.mem_map.mpr ⟨c, hc, rfl⟩⟩

theorem one_forest {n : Str} {e : Expression} {kids} (h : HasAlt grammar (.nonterminal n) e) (hk : IsForest grammar e.terms kids) :
    IsForest grammar [.nonterminal n] [node n kids] := .nonterminal h hk .nil

theorem letter_forest {c : Char} (h : c ∈ letters) {ts ns} (hr : IsForest grammar ts ns) :
    IsForest grammar (.nonterminal nLetter :: ts) (letter c :: ns) := .nonterminal (letter_alt c h) (.terminal .nil) hr

theorem word_forest {p : Str} (hp : p ≠ []) (h : ∀ c ∈ p, c ∈ letters) {ts ns} (hr : IsForest grammar ts ns) :
    IsForest grammar (.nonterminal nNameWord :: ts) (word p :: ns) := by
  induction p generalizing ts ns with
  | nil => exact absurd rfl hp
  | cons c p ih =>
    cases p with
    | nil => exact .nonterminal (e := ⟨[.nonterminal nLetter]⟩) (alt_of (by decide +kernel)) (letter_forest (h c (by simp)) .nil) hr
    | cons d r =>
      exact .nonterminal (e := ⟨[.nonterminal nLetter, .nonterminal nNameWord]⟩) (alt_of (by decide +kernel))
        (letter_forest (h c (by simp)) (ih (by simp) (fun x hx => h x (List.mem_cons_of_mem _ hx)) .nil)) hr

theorem personal_forest {p : Str} (hp : p ≠ []) (h : ∀ c ∈ p, c ∈ letters) {ts ns} (hr : IsForest grammar ts ns) :
    IsForest grammar (.nonterminal nPersonalPart :: ts) (personal p :: ns) :=
  .nonterminal (e := ⟨[.nonterminal nFirstName]⟩) (alt_of (by decide +kernel))
    (.nonterminal (e := ⟨[.nonterminal nNameWord]⟩) (alt_of (by decide +kernel)) (word_forest hp h .nil) .nil) hr

theorem name_forest {c : Char} (hc : c ∈ letters) {p : Str} {r : List Str} (hp : ∀ q ∈ p :: r, q ≠ [] ∧ ∀ c ∈ q, c ∈ letters) {ts ns}
    (hr : IsForest grammar ts ns) : IsForest grammar (.nonterminal nNamePart :: ts) (name c p r :: ns) := by
  induction r generalizing p ts ns with
  | nil =>
    exact .nonterminal (e := ⟨[.nonterminal nPersonalPart, .nonterminal nLastName, .nonterminal nOptSuffixPart, .nonterminal nEOL]⟩)
      (alt_of (by decide +kernel)) (personal_forest (hp p (by simp)).1 (hp p (by simp)).2
        (.nonterminal (e := ⟨[.nonterminal nNameWord]⟩) (alt_of (by decide +kernel)) (word_forest (by simp) (by simpa using hc) .nil)
          (.nonterminal (e := ⟨[.terminal []]⟩) (alt_of (by decide +kernel)) (.terminal .nil)
            (.nonterminal (e := ⟨[.terminal [';']]⟩) (alt_of (by decide +kernel)) (.terminal .nil) .nil)))) hr
  | cons q r ih =>
    exact .nonterminal (e := ⟨[.nonterminal nPersonalPart, .nonterminal nNamePart]⟩) (alt_of (by decide +kernel))
      (personal_forest (hp p (by simp)).1 (hp p (by simp)).2 (ih (fun q' hq' => hp q' (List.mem_cons_of_mem _ hq')) .nil)) hr

/-! ## Ways to split a name -/

/-- All ways to cut a text into one or more parts that are not empty: the first part and the others. -/
def cuts : Str → List (Str × List Str)
  | [] => []
  | [a] => [([a], [])]
  | a :: b :: r => (cuts (b :: r)).flatMap fun s => [([a], s.1 :: s.2), (a :: s.1, s.2)]

theorem cuts_length : ∀ v : Str, v ≠ [] → (cuts v).length = 2 ^ (v.length - 1)
  | [], h => absurd rfl h
  | [a], _ => rfl
  | a :: b :: r, _ => by
    have ih := cuts_length (b :: r) (by simp)
    have hsum : ∀ l : List (Str × List Str), (l.map fun _ => 2).sum = 2 * l.length := by
      intro l; induction l with
      | nil => rfl
      | cons x l ihl => simp only [List.map_cons, List.sum_cons, ihl, List.length_cons]; omega
    simp only [cuts, List.length_flatMap, List.length_cons, List.length_nil, Nat.zero_add, Nat.reduceAdd]
    rw [hsum, ih]
    simp only [List.length_cons, Nat.add_sub_cancel]
    rw [Nat.pow_succ, Nat.mul_comm]

theorem cuts_flatten : ∀ (v : Str) {s : Str × List Str}, s ∈ cuts v → s.1 ++ s.2.flatten = v ∧ ∀ q ∈ s.1 :: s.2, q ≠ []
  | [], _, h => absurd h (by simp [cuts])
  | [a], s, h => by
    simp only [cuts, List.mem_singleton] at h
    subst h; simp
  | a :: b :: r, s, h => by
    simp only [cuts, List.mem_flatMap, List.mem_cons, List.not_mem_nil, or_false] at h
    obtain ⟨s', hs', h⟩ := h
    obtain ⟨ih1, ih2⟩ := cuts_flatten (b :: r) hs'
    rcases h with rfl | rfl
    · refine ⟨by simp [ih1], fun q hq => ?_⟩
      rcases List.mem_cons.mp hq with rfl | hq
      · simp
      · exact ih2 q hq
    · refine ⟨by simp [ih1], fun q hq => ?_⟩
      rcases List.mem_cons.mp hq with rfl | hq
      · simp
      · exact ih2 q (List.mem_cons_of_mem _ hq)

theorem cuts_nodup : ∀ v : Str, (cuts v).Nodup
  | [] => by simp [cuts]
  | [a] => by simp [cuts]
  | a :: b :: r => by
    simp only [cuts]
    have ih := cuts_nodup (b :: r)
    rw [List.nodup_flatMap]
    refine ⟨fun s hs => ?_, ih.imp_of_mem fun {s s'} hs hs' hne => ?_⟩
    · have := (cuts_flatten _ hs).2 s.1 (by simp)
      simp [this.symm]
    · have h1 := (cuts_flatten _ hs).2 s.1 (by simp)
      have h2 := (cuts_flatten _ hs').2 s'.1 (by simp)
      intro x hx hx'
      simp only [List.mem_cons, List.not_mem_nil, or_false] at hx hx'
      obtain ⟨s1, s2⟩ := s
      obtain ⟨s1', s2'⟩ := s'
      rcases hx with rfl | rfl <;> rcases hx' with h | h
      · simp only [Prod.mk.injEq, true_and, List.cons.injEq] at h
        exact hne (by rw [h.1, h.2])
      · simp only [Prod.mk.injEq, List.cons.injEq, true_and] at h
        exact h2 h.1.symm
      · simp only [Prod.mk.injEq, List.cons.injEq, true_and] at h
        exact h1 h.1
      · simp only [Prod.mk.injEq, List.cons.injEq, true_and] at h
        exact hne (by rw [h.1, h.2])

/-! ## The trees -/

/-- The tree with these first names, the last name `c` and an address. -/
def tree (c : Char) (address : List ParseTreeNode) (s : Str × List Str) : ParseTree := ⟨.nonterminal nPostalAddress, name c s.1 s.2 :: address⟩

theorem tree_inj {c : Char} {address : List ParseTreeNode} {s s' : Str × List Str} (h : tree c address s = tree c address s') : s = s' := by
  simp only [tree, ParseTree.mk.injEq, List.cons.injEq, true_and, and_true] at h
  obtain ⟨h1, h2⟩ := name_inj h
  exact Prod.ext h1 h2

theorem tree_parse {c : Char} (hc : c ∈ letters) {v : Str} (hv : ∀ d ∈ v, d ∈ letters) {address : List ParseTreeNode}
    (ha : IsForest grammar [.nonterminal nStreetAddress, .nonterminal nZipPart] address) {s : Str × List Str} (hs : s ∈ cuts v) :
    IsParse grammar (.nonterminal nPostalAddress) (v ++ c :: ';' :: Spec.yield address) (tree c address s) := by
  obtain ⟨h1, h2⟩ := cuts_flatten v hs
  refine ⟨rfl, ⟨⟨[.nonterminal nNamePart, .nonterminal nStreetAddress, .nonterminal nZipPart]⟩, alt_of (by decide +kernel),
    name_forest hc (fun q hq => ⟨h2 q hq, fun d hd => hv d ?_⟩) ha⟩, ?_⟩
  · rw [← h1, List.mem_append]
    rcases List.mem_cons.mp hq with rfl | hq
    · exact .inl hd
    · exact .inr (List.mem_flatten.mpr ⟨q, hq, hd⟩)
  · simp [tree, Spec.yield, name_yield, ← h1]

end Bnf.Spec.Postal
