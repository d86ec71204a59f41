import Verif.Proofs.PostalMean
import Verif.Props.Mean
import Verif.Props.TestGrammars
import Verif.Props.TreeChance

/-!
# Property C116: the benchmarks

`benches/divan.rs` generates sentences at random and goes through all their parse trees.  With the grammar of postal addresses this ends for every sentence,
and generating ends with probability 1; but the names are not separated, so that a name of n letters has about 2^n trees, and on average over the generated
sentences there are infinitely many trees to go through.  The random source is ideal, as in C78.
-/

set_option autoImplicit false

namespace Bnf.Props
open Bnf Spec Postal

set_option maxRecDepth 20000

/-- C116: the text of the benchmark denotes the grammar written out in `Spec/Postal.lean`, … -/
theorem C116_text (f : Char → Bool) : Grammar.fromStr f Postal.text = some (.ok Postal.grammar) := by
  have h : Grammar.parseFrom BNF Postal.text = some (.ok Postal.grammar) := by decide +kernel
  exact fromStr_of_BNF h

theorem postal_nodup : (Postal.grammar.productions.flatMap fun p => p.rhs.map fun e => (p.lhs, e)).Nodup := by decide +kernel

/-- The nonterminals of the alternatives of a rule. -/
def namesOf (e : Expression) : List Str := e.terms.filterMap fun
  | .nonterminal y => some y
  | .terminal _ => none

theorem mem_namesOf {e : Expression} {y : Str} : y ∈ namesOf e ↔ .nonterminal y ∈ e.terms := by
  simp only [namesOf, List.mem_filterMap]
  constructor
  · rintro ⟨t, h1, h2⟩
    cases t <;> simp_all
  · exact fun h => ⟨_, h, rfl⟩

def nameOf : Term → Str
  | .nonterminal y => y
  | .terminal _ => []

theorem postal_declared : AllDeclared Postal.grammar := by
  have h : ∀ p ∈ Postal.grammar.productions, ∀ e ∈ p.rhs, ∀ x ∈ namesOf e, ∃ q ∈ Postal.grammar.productions, q.lhs = .nonterminal x := by decide +kernel
  exact fun p hp e he x hx => h p hp e he _ (mem_namesOf.2 hx)

theorem postal_finite (S : Term) (w : Str) : {t | IsParse Postal.grammar S w t}.Finite := by
  obtain ⟨it, ho⟩ := opened_of (g := Postal.grammar) (S := S) (input := w) (by simp [Postal.grammar, Postal.rules])
  obtain ⟨ts, it1, it2, hd, hn⟩ := C06_terminates_acyclic Postal.acyclic ho
  exact (list_toSet_finite ts).subset fun t ht => (C05_exhausted_exact ho hd hn t).mpr ht

/-- C116: … and going through the trees of any input ends, after as many trees as there are, each once. -/
theorem C116_parsing {S w it} (ho : Opened Postal.grammar S w it) :
    ∃ ts, Collects it ts ∧ ts.Nodup ∧ ∀ t, t ∈ ts ↔ IsParse Postal.grammar S w t := by
  obtain ⟨ts, it1, it2, hd, hn⟩ := C06_terminates_acyclic Postal.acyclic ho
  exact ⟨ts, ⟨it1, it2, hd, hn⟩, C04_no_duplicates postal_nodup ho hd, C05_exhausted_exact ho hd hn⟩

/-- C116: an address whose name is made of n + 1 letters has at least 2^(n-1) trees, whatever the letters and the rest of the address: every way to cut
the letters (except the last one) into first names gives a tree. -/
theorem C116_trees {c : Char} (hc : c ∈ Postal.letters) {v : Str} (hv : v ≠ []) (hl : ∀ d ∈ v, d ∈ Postal.letters) {a z : Str}
    (ha : Derives Postal.grammar (.nonterminal nStreetAddress) a) (hz : Derives Postal.grammar (.nonterminal nZipPart) z) {it}
    (ho : Opened Postal.grammar (.nonterminal nPostalAddress) (v ++ c :: ';' :: (a ++ z)) it) :
    ∃ ts, Collects it ts ∧ ts.length = Postal.trees (v ++ c :: ';' :: (a ++ z)) ∧ 2 ^ (v.length - 1) ≤ ts.length := by
  classical
  obtain ⟨ts, h1, h2, h3⟩ := C116_parsing ho
  have hlen : ts.length = Postal.trees (v ++ c :: ';' :: (a ++ z)) := by
    rw [Postal.trees, ← List.toFinset_card_of_nodup h2, ← Set.ncard_coe_finset]
    congr 1
    ext t
    simp [h3]
  refine ⟨ts, h1, hlen, ?_⟩
  obtain ⟨t1, r1, ⟨e1, he1, hf1⟩, hy1⟩ := ha
  obtain ⟨t2, r2, ⟨e2, he2, hf2⟩, hy2⟩ := hz
  rw [r1] at he1
  rw [r2] at he2
  have := trees_ge (postal_finite _) hc hv hl (.nonterminal he1 hf1 (.nonterminal he2 hf2 .nil))
  rw [hlen]
  simpa [Spec.yield, nodeYield, hy1, hy2] using this

/-! ## Generating ends with probability 1 -/

/-- The position of the rule, counted from the end. -/
def postalRank (x : Str) : Nat := (Postal.grammar.productions.reverse.findIdx fun p => p.lhs == .nonterminal x)

theorem postal_starts : Starts Postal.grammar nPostalAddress := ⟨by decide +kernel, _, _, rfl, rfl⟩

theorem postal_rank (x y : Str) (h : Refers Postal.grammar x y) : postalRank y ≤ postalRank x := by
  have hall : ∀ p ∈ Postal.grammar.productions, ∀ e ∈ p.rhs, ∀ y ∈ namesOf e, postalRank y ≤ postalRank (nameOf p.lhs) := by decide +kernel
  obtain ⟨p, hp, e, he, hy⟩ := h
  obtain ⟨h1, h2⟩ := isFirst_mem hp
  have := hall p h1 e he _ (mem_namesOf.2 hy)
  rw [h2] at this
  exact this

/-- An alternative without nonterminals, if there is one. -/
def exits (p : Production) : List Expression :=
  if (p.rhs.any fun e => (namesOf e).isEmpty) then p.rhs.filter fun e => (namesOf e).isEmpty else p.rhs.take 1

theorem allTerminal_iff {e : Expression} : (namesOf e).isEmpty = true ↔ AllTerminal e := by
  rw [List.isEmpty_iff, List.eq_nil_iff_forall_not_mem]
  simp only [mem_namesOf, AllTerminal]
  constructor
  · intro h t ht
    cases t with
    | terminal w => exact ⟨w, rfl⟩
    | nonterminal y => exact (h y ht).elim
  · intro h y hy
    obtain ⟨w, hw⟩ := h _ hy
    cases hw

theorem exits_spec {p : Production} {e : Expression} (h : e ∈ exits p) : e ∈ p.rhs ∧ (AllTerminal e ∨ ∀ e' ∈ p.rhs, ¬ AllTerminal e') := by
  unfold exits at h
  split at h
  · rename_i hc
    rw [List.mem_filter] at h
    exact ⟨h.1, .inl (allTerminal_iff.1 h.2)⟩
  · rename_i hc
    refine ⟨List.mem_of_mem_take h, .inr fun e' he' ht => hc ?_⟩
    exact List.any_eq_true.2 ⟨e', he', allTerminal_iff.2 ht⟩

theorem postal_finishable {A : Allowance} (hA : ∀ d p e, e ∈ exits p → A d p e) :
    ∀ k x, postalRank x < k → ∀ d, Finishable Postal.grammar A d x := by
  have hall : ∀ p ∈ Postal.grammar.productions, (∃ e ∈ exits p, ∀ y ∈ namesOf e, postalRank y < postalRank (nameOf p.lhs)) ∧ p.rhs ≠ [] ∧ p.rhs ≠ [⟨[]⟩] := by
    decide +kernel
  intro k
  induction k with
  | zero => intro x hx; omega
  | succ k ih =>
    intro x hx d
    cases hf : firstOf Postal.grammar x with
    | none => exact .undeclared (firstOf_declared.1 hf)
    | some p =>
      have hp := firstOf_isFirst hf
      obtain ⟨h1, h2⟩ := isFirst_mem hp
      obtain ⟨⟨e, he, h3⟩, h4, h5⟩ := hall p h1
      rw [h2] at h3
      refine .expand hp (by rintro (h | h); exacts [h4 h, h5 h]) (hA d p e he) fun y hy => ih y ?_ (d + 1)
      have := h3 _ (mem_namesOf.2 hy)
      simp only [nameOf] at this
      omega

theorem postal_balance (x : Str) (p : Production) (hp : IsFirst Postal.grammar x p) :
    (p.rhs.map (offspring (sameRank postalRank (fun _ => 1) x))).sum ≤ 1 * p.rhs.length ∧
    ((weightedAlts 100 1 0 p).map (offspring (sameRank postalRank (fun _ => 1) x))).sum ≤ 1 * (weightedAlts 100 1 0 p).length := by
  have hav : ∀ p ∈ Postal.grammar.productions,
      (p.rhs.map (offspring (sameRank postalRank (fun _ => 1) (nameOf p.lhs)))).sum ≤ 1 * p.rhs.length ∧
      ((weightedAlts 100 1 0 p).map (offspring (sameRank postalRank (fun _ => 1) (nameOf p.lhs)))).sum ≤ 1 * (weightedAlts 100 1 0 p).length := by
    decide +kernel
  obtain ⟨h1, h2⟩ := isFirst_mem hp
  have := hav p h1
  rw [h2] at this
  exact this

/-- C116: generating postal addresses ends with probability 1, with the random walk, the depth-bounded strategy (bound 10 as in the benchmark, or any other)
and the weighted strategy with the weights of the benchmark. -/
theorem C116_generating : (AlmostSurely fun n st => Postal.grammar.generateSeededWithStrategy (RandomWalk tapeRng) n st) ∧
    (∀ m, AlmostSurely fun n st => Postal.grammar.generateSeededWithStrategy (DepthBounded tapeRng m) n st) ∧
    ∀ checked, AlmostSurely fun n st => Postal.grammar.generateSeededWithStrategy (Weighted tapeRng checked 100 1) n st := by
  refine ⟨?_, fun m => ?_, fun checked => ?_⟩
  · exact C102_ends postal_starts postalRank (fun x y _ h => postal_rank x y h) (v := fun _ => 1) (fun _ => zero_le_one) (fun _ _ => zero_lt_one)
      (fun x _ => postal_finishable (fun d p e he => (exits_spec he).1) _ x (Nat.lt_succ_self _) 0) fun x p _ hp => (postal_balance x p hp).1
  · exact C102_ends_depth_bounded postal_starts m postalRank (fun x y _ h => postal_rank x y h) (v := fun _ => 1) (fun _ => zero_le_one)
      (fun _ _ => zero_lt_one) (fun x _ => postal_finishable (fun d p e he => ⟨(exits_spec he).1, fun _ => (exits_spec he).2⟩) _ x (Nat.lt_succ_self _) m)
      fun x p _ hp _ => (postal_balance x p hp).1
  · refine C102_ends_weighted postal_starts checked 100 1 (by decide +kernel) postalRank (fun x y _ h => postal_rank x y h) (v := fun _ => 1)
      (fun _ => zero_le_one) (fun _ _ => zero_lt_one)
      (fun x _ => postal_finishable (fun d p e he => ⟨(exits_spec he).1, .inl ?_⟩) _ x (Nat.lt_succ_self _) 0) fun x p _ hp => (postal_balance x p hp).2
    unfold altWeight
    split <;> simp

/-- C116: for any number K, the expected number of trees of a generated postal address is above K if enough nested expansions are allowed: the expected
work of the benchmark is infinite. -/
theorem C116_expected (K : ℚ) : ∃ N, ∀ n, N ≤ n → ∃ μ,
    HasMean (fun st => Postal.grammar.generateSeededWithStrategy (RandomWalk tapeRng) n st) (fun w _ => (Postal.trees w : ℚ)) μ ∧ K ≤ μ := by
  obtain ⟨q, hq, h⟩ := Postal.tree_chance
  obtain ⟨m, hm⟩ := exists_nat_ge (K / (q / 2))
  refine ⟨m + 10, fun n hn => ⟨meanOver (dist Postal.grammar uniformAlts n 0 nPostalAddress) fun w => (Postal.trees w : ℚ), ?_, ?_⟩⟩
  · rw [generate_starts postal_starts]
    exact mean_of_dist (G := fun _ => True) (fun _ _ => trivial) draws_randomWalk _ n 0 nPostalAddress
  · have h1 := sample_mean (postal_finite _) hq h hn
    have h2 := mean_trees_ge (g := Postal.grammar) (alts := uniformAlts) postal_declared uniformAlts_from n (x := nPostalAddress)
      ⟨_, List.mem_cons_self, rfl⟩ (f := fun w => (Postal.trees w : ℚ)) (fun w => Nat.cast_nonneg _) (sample_nodup m) (fun t ht => by
        obtain ⟨v, _, _, rfl⟩ := sample_mem ht; rfl)
    have h3 : K ≤ m * (q / 2) := (div_le_iff₀ (by positivity)).mp hm
    exact h3.trans (h1.trans h2)

/-- C116: in general the expected value of a number that depends on the generated sentence is the sum over all parse trees of the probability of the tree
times the number for the sentence it spells; here for the random walk stopped at n nested expansions. -/
theorem C116_mean {g : Grammar} {start : Str} (h : Starts g start) (hd : AllDeclared g) (n : Nat) (f : Str → ℚ) {L : List ParseTree} (hL : L.Nodup)
    (hroot : ∀ t ∈ L, t.lhs = .nonterminal start)
    (hm : ∀ w t, IsParse g (.nonterminal start) w t → treeNesting t ≤ n → treeChance g uniformAlts t ≠ 0 → t ∈ L) :
    HasMean (fun st => g.generateSeededWithStrategy (RandomWalk tapeRng) n st) (fun w _ => f w)
      (L.map fun t => (if treeNesting t ≤ n then treeChance g uniformAlts t else 0) * f (Spec.yield t.rhs)).sum := by
  obtain ⟨_, p, r, hg, hl⟩ := id h
  rw [generate_starts h, ← mean_trees hd uniformAlts_from n ⟨p, by rw [hg]; exact List.mem_cons_self, hl⟩ f hL hroot hm]
  exact mean_of_dist (G := fun _ => True) (fun _ _ => trivial) draws_randomWalk _ n 0 start

/-! ## Examples -/

/-- "abcdef;1a;a,aa11111;" has at least 16 trees. -/
example : ∃ it ts, Opened Postal.grammar (.nonterminal nPostalAddress) (chars! "abcdef;1a;a,aa11111;") it ∧ Collects it ts ∧ 16 ≤ ts.length := by
  obtain ⟨it, ho⟩ := opened_of (g := Postal.grammar) (S := .nonterminal nPostalAddress) (input := chars! "abcdef;1a;a,aa11111;") (by simp [Postal.grammar, Postal.rules])
  have hf := Postal.address_forest
  have e : chars! "abcdef;1a;a,aa11111;" = chars! "abcde" ++ 'f' :: ';' :: (chars! "1a;" ++ chars! "a,aa11111;") := by decide
  have h1 : Derives Postal.grammar (.nonterminal nStreetAddress) (chars! "1a;") := by
    unfold Postal.address Postal.node at hf
    cases hf with
    | nonterminal ha hk _ => exact ⟨⟨_, _⟩, rfl, ⟨_, ha, hk⟩, by simp [Spec.yield, nodeYield, Postal.letter, Postal.node]⟩
  have h2 : Derives Postal.grammar (.nonterminal nZipPart) (chars! "a,aa11111;") := by
    unfold Postal.address Postal.node at hf
    cases hf with
    | nonterminal _ _ hf =>
      cases hf with
      | nonterminal ha hk _ => exact ⟨⟨_, _⟩, rfl, ⟨_, ha, hk⟩, by simp [Spec.yield, nodeYield, Postal.letter, Postal.node]⟩
  rw [e] at ho
  obtain ⟨ts, h3, _, h4⟩ := C116_trees (by decide) (by simp) (by decide) h1 h2 ho
  exact ⟨it, ts, e ▸ ho, h3, h4⟩

/-- The mean of length + 1 over the sentences of `<s> ::= <s> 'a' | ''` made with one expansion: "" has probability 1/2. -/
example : HasMean (fun st => gLeft.generateSeededWithStrategy (RandomWalk tapeRng) 1 st) (fun w _ => (w.length : ℚ) + 1) (1 / 2) := by
  have hd : AllDeclared gLeft := by
    intro p hp e he x hx
    simp only [gLeft, List.mem_singleton] at hp
    subst hp
    simp only [List.mem_cons, List.not_mem_nil, or_false] at he
    rcases he with rfl | rfl <;> simp at hx
    exact ⟨_, List.mem_singleton_self _, by rw [hx]⟩
  have := C116_mean (g := gLeft) (start := ['s']) ⟨by rfl, _, _, rfl, rfl⟩ hd 1 (fun w => (w.length : ℚ) + 1)
    (L := [⟨.nonterminal ['s'], [.terminal []]⟩]) (by simp) (by simp) (by
      rintro w ⟨l, k⟩ ⟨hl, ⟨e, ⟨p, hp, hpl, he⟩, hk⟩, -⟩ hn _
      simp only [gLeft, List.mem_singleton] at hp
      subst hp
      simp only [List.mem_cons, List.not_mem_nil, or_false] at he
      rcases he with rfl | rfl
      · cases hk with
        | nonterminal _ _ _ => simp [treeNesting, nodeNesting, kidsNesting] at hn
      · cases hk with
        | terminal hk =>
          cases hk
          simp only at hl
          simp [hl])
  convert this using 1
  simp [treeChance, nodeChance, kidsChance, share, firstOf, gLeft, Barren, uniformAlts, treeNesting, nodeNesting, kidsNesting, Spec.yield, nodeYield, rootTerm]

end Bnf.Props
