import Verif.Proofs.Postal
import Verif.Proofs.MeanTrees
import Mathlib.Algebra.Order.Archimedean.Basic

/-!
# How many trees to expect in the benchmarks on postal addresses

Helper lemmas for C116.
-/

set_option autoImplicit false

namespace Bnf.Spec.Postal
open Bnf Spec

set_option maxRecDepth 20000

theorem share_letter : ∀ c ∈ letters, ∀ d, share grammar uniformAlts d (.nonterminal nLetter) [.terminal [c]] = 1 / 52 := by
  have h : ∀ c ∈ letters, share grammar uniformAlts 0 (.nonterminal nLetter) [.terminal [c]] = 1 / 52 := by decide +kernel
  exact fun c hc d => h c hc

theorem share_last (d : Nat) : share grammar uniformAlts d (.nonterminal nNameWord) [.nonterminal nLetter] = 1 / 2 := by
  have h : share grammar uniformAlts 0 (.nonterminal nNameWord) [.nonterminal nLetter] = 1 / 2 := by decide +kernel
  exact h

theorem share_more (d : Nat) : share grammar uniformAlts d (.nonterminal nNameWord) [.nonterminal nLetter, .nonterminal nNameWord] = 1 / 2 := by
  have h : share grammar uniformAlts 0 (.nonterminal nNameWord) [.nonterminal nLetter, .nonterminal nNameWord] = 1 / 2 := by decide +kernel
  exact h

theorem word_root (p : Str) : rootTerm (word p) = .nonterminal nNameWord := by
  cases p with
  | nil => rfl
  | cons c p => cases p <;> rfl

theorem letter_chance {c : Char} (hc : c ∈ letters) (d : Nat) : nodeChance grammar uniformAlts d (letter c) = 1 / 52 := by
  simp only [letter, node, nodeChance, kidsChance, List.map_cons, List.map_nil, rootTerm, mul_one]
  exact share_letter c hc d

theorem word_chance {p : Str} (hp : p ≠ []) (h : ∀ c ∈ p, c ∈ letters) (d : Nat) : nodeChance grammar uniformAlts d (word p) = (1 / 104) ^ p.length := by
  induction p generalizing d with
  | nil => exact absurd rfl hp
  | cons c p ih =>
    cases p with
    | nil =>
      simp only [word, node, nodeChance, kidsChance, List.map_cons, List.map_nil, letter_chance (h c (by simp))]
      rw [show rootTerm (letter c) = .nonterminal nLetter from rfl, share_last]
      norm_num
    | cons e r =>
      simp only [word, node, nodeChance, kidsChance, List.map_cons, List.map_nil, letter_chance (h c (by simp)), word_root]
      rw [show rootTerm (letter c) = .nonterminal nLetter from rfl, share_more, ih (by simp) (fun x hx => h x (List.mem_cons_of_mem _ hx))]
      simp only [List.length_cons]
      ring

/-- `1a;a,aa11111;` -/
def address : List ParseTreeNode := [
  node nStreetAddress [node nHouseNum [node nDigit [.terminal ['1']]], node nStreetName [node nWord [letter 'a']], node nOptAptNum [.terminal []],
    node nEOL [.terminal [';']]],
  node nZipPart [node nTownName [node nWord [letter 'a']], .terminal [','], node nStateCode [letter 'a', letter 'a'],
    node nZIPCode [node nDigit [.terminal ['1']], node nDigit [.terminal ['1']], node nDigit [.terminal ['1']], node nDigit [.terminal ['1']],
      node nDigit [.terminal ['1']]], node nEOL [.terminal [';']]]]

theorem address_forest : IsForest grammar [.nonterminal nStreetAddress, .nonterminal nZipPart] address := by
  have ha : 'a' ∈ letters := by decide
  have one : ∀ {ts ns}, IsForest grammar ts ns → IsForest grammar (.nonterminal nDigit :: ts) (node nDigit [.terminal ['1']] :: ns) := fun h =>
    .nonterminal (e := ⟨[.terminal ['1']]⟩) (alt_of (by decide +kernel)) (.terminal .nil) h
  have eol : ∀ {ts ns}, IsForest grammar ts ns → IsForest grammar (.nonterminal nEOL :: ts) (node nEOL [.terminal [';']] :: ns) := fun h =>
    .nonterminal (e := ⟨[.terminal [';']]⟩) (alt_of (by decide +kernel)) (.terminal .nil) h
  have a : IsForest grammar [.nonterminal nWord] [node nWord [letter 'a']] :=
    .nonterminal (e := ⟨[.nonterminal nLetter]⟩) (alt_of (by decide +kernel)) (letter_forest ha .nil) .nil
  refine .nonterminal (e := ⟨[.nonterminal nHouseNum, .nonterminal nStreetName, .nonterminal nOptAptNum, .nonterminal nEOL]⟩) (alt_of (by decide +kernel)) ?_
    (.nonterminal (e := ⟨[.nonterminal nTownName, .terminal [','], .nonterminal nStateCode, .nonterminal nZIPCode, .nonterminal nEOL]⟩)
      (alt_of (by decide +kernel)) ?_ .nil)
  · exact .nonterminal (e := ⟨[.nonterminal nDigit]⟩) (alt_of (by decide +kernel)) (one .nil)
      (.nonterminal (e := ⟨[.nonterminal nWord]⟩) (alt_of (by decide +kernel)) a
        (.nonterminal (e := ⟨[.terminal []]⟩) (alt_of (by decide +kernel)) (.terminal .nil) (eol .nil)))
  · exact .nonterminal (e := ⟨[.nonterminal nWord]⟩) (alt_of (by decide +kernel)) a (.terminal
      (.nonterminal (e := ⟨[.nonterminal nLetter, .nonterminal nLetter]⟩) (alt_of (by decide +kernel)) (letter_forest ha (letter_forest ha .nil))
        (.nonterminal (e := ⟨[.nonterminal nDigit, .nonterminal nDigit, .nonterminal nDigit, .nonterminal nDigit, .nonterminal nDigit]⟩)
          (alt_of (by decide +kernel)) (one (one (one (one (one .nil))))) (eol .nil))))

theorem address_chance : 0 < kidsChance grammar uniformAlts 1 address := by
  simp only [address, node, letter, kidsChance, nodeChance, List.map_cons, List.map_nil, rootTerm]
  decide +kernel

/-- The chance of a tree with one first name. -/
theorem tree_chance : ∃ q : ℚ, 0 < q ∧ ∀ v : Str, v ≠ [] → (∀ c ∈ v, c ∈ letters) →
    treeChance grammar uniformAlts (tree 'a' address (v, [])) = q * (1 / 104) ^ v.length := by
  refine ⟨1 / 1664 * kidsChance grammar uniformAlts 1 address, mul_pos (by norm_num) address_chance, fun v hv hl => ?_⟩
  have h0 : share grammar uniformAlts 0 (.nonterminal nPostalAddress) [.nonterminal nNamePart, .nonterminal nStreetAddress, .nonterminal nZipPart] = 1 := by
    decide +kernel
  have h1 : share grammar uniformAlts 1 (.nonterminal nNamePart) [.nonterminal nPersonalPart, .nonterminal nLastName, .nonterminal nOptSuffixPart,
    .nonterminal nEOL] = 1 / 2 := by decide +kernel
  have h2 : share grammar uniformAlts 2 (.nonterminal nPersonalPart) [.nonterminal nFirstName] = 1 / 2 := by decide +kernel
  have h3 : share grammar uniformAlts 3 (.nonterminal nFirstName) [.nonterminal nNameWord] = 1 := by decide +kernel
  have h4 : share grammar uniformAlts 2 (.nonterminal nLastName) [.nonterminal nNameWord] = 1 := by decide +kernel
  have h5 : share grammar uniformAlts 2 (.nonterminal nOptSuffixPart) [.terminal []] = 1 / 4 := by decide +kernel
  have h6 : share grammar uniformAlts 2 (.nonterminal nEOL) [.terminal [';']] = 1 := by decide +kernel
  have hname : nodeChance grammar uniformAlts 1 (name 'a' v []) = 1 / 1664 * (1 / 104) ^ v.length := by
    have r1 : ∀ l k, rootTerm (.nonterminal l k) = l := fun _ _ => rfl
    have r2 : ∀ s, rootTerm (.terminal s) = .terminal s := fun _ => rfl
    simp only [name, node, personal, nodeChance, kidsChance, List.map_cons, List.map_nil, r1, r2, word_root, Nat.reduceAdd, h1, h2, h3, h4, h5, h6,
      word_chance hv hl, word_chance (p := ['a']) (by simp) (by decide)]
    simp only [List.length_cons, List.length_nil]
    ring
  have hroots : (name 'a' v [] :: address).map rootTerm = [.nonterminal nNamePart, .nonterminal nStreetAddress, .nonterminal nZipPart] := rfl
  simp only [treeChance, tree]
  rw [nodeChance, hroots, h0, kidsChance, hname]
  ring

/-- All words of `k` letters. -/
def words : Nat → List Str
  | 0 => [[]]
  | k + 1 => letters.flatMap fun c => (words k).map (c :: ·)

theorem words_mem (k : Nat) {v : Str} (h : v ∈ words k) : v.length = k ∧ ∀ c ∈ v, c ∈ letters := by
  induction k generalizing v with
  | zero => simp only [words, List.mem_singleton] at h; subst h; simp
  | succ k ih =>
    simp only [words, List.mem_flatMap, List.mem_map] at h
    obtain ⟨c, hc, v', hv', rfl⟩ := h
    obtain ⟨h1, h2⟩ := ih hv'
    refine ⟨by simp [h1], fun d hd => ?_⟩
    rcases List.mem_cons.mp hd with rfl | hd
    · exact hc
    · exact h2 d hd

theorem words_length (k : Nat) : (words k).length = 52 ^ k := by
  induction k with
  | zero => rfl
  | succ k ih =>
    simp only [words, List.length_flatMap, List.length_map, ih]
    have : ∀ (l : List Char) (m : Nat), (l.map fun _ => m).sum = l.length * m := by
      intro l m; induction l with
      | nil => simp
      | cons x l ihl => simp only [List.map_cons, List.sum_cons, ihl, List.length_cons]; ring
    rw [this, show letters.length = 52 from rfl, pow_succ, Nat.mul_comm]

theorem words_nodup (k : Nat) : (words k).Nodup := by
  induction k with
  | zero => simp [words]
  | succ k ih =>
    simp only [words]
    rw [List.nodup_flatMap]
    refine ⟨fun c _ => ih.map fun a b h => (List.cons.inj h).2, ?_⟩
    have : letters.Nodup := by decide
    refine this.imp fun {a b} hab x hx hx' => ?_
    obtain ⟨v, _, rfl⟩ := List.mem_map.mp hx
    obtain ⟨v', _, h⟩ := List.mem_map.mp hx'
    exact hab (List.cons.inj h).1.symm

/-! ## Nesting -/

theorem word_nesting (v : Str) : nodeNesting (word v) ≤ v.length + 1 := by
  induction v with
  | nil => simp [word, node, nodeNesting, kidsNesting]
  | cons c v ih =>
    cases v with
    | nil => simp [word, node, letter, nodeNesting, kidsNesting]
    | cons d r =>
      simp only [word, node, letter, nodeNesting, kidsNesting, List.length_cons] at ih ⊢
      omega

theorem tree_nesting (v : Str) : treeNesting (tree 'a' address (v, [])) ≤ v.length + 10 := by
  have h1 := word_nesting v
  have h2 := word_nesting ['a']
  simp only [List.length_cons, List.length_nil] at h2
  simp only [treeNesting, tree, name, personal, node, address, letter, nodeNesting, kidsNesting]
  omega

/-! ## The mean -/

theorem trees_ge (hfin : ∀ w, {t | IsParse grammar (.nonterminal nPostalAddress) w t}.Finite) {c : Char} (hc : c ∈ letters) {v : Str} (hv : v ≠ [])
    (hl : ∀ d ∈ v, d ∈ letters) {address : List ParseTreeNode} (ha : IsForest grammar [.nonterminal nStreetAddress, .nonterminal nZipPart] address) :
    2 ^ (v.length - 1) ≤ trees (v ++ c :: ';' :: Spec.yield address) := by
  classical
  have h1 : ((cuts v).map (tree c address)).Nodup := (cuts_nodup v).map fun a b h => tree_inj h
  have h2 : ((cuts v).map (tree c address)).toFinset.card = 2 ^ (v.length - 1) := by
    rw [List.toFinset_card_of_nodup h1, List.length_map, cuts_length v hv]
  rw [← h2, trees, ← Set.ncard_coe_finset]
  refine Set.ncard_le_ncard (fun t ht => ?_) (hfin _)
  simp only [Finset.mem_coe, List.mem_toFinset, List.mem_map] at ht
  obtain ⟨s, hs, rfl⟩ := ht
  exact tree_parse hc hl ha hs

/-- The trees with one first name of at most `m` letters. -/
def sample : Nat → List ParseTree
  | 0 => []
  | m + 1 => sample m ++ (words (m + 1)).map fun v => tree 'a' address (v, [])

theorem sample_mem {m : Nat} {t : ParseTree} (h : t ∈ sample m) : ∃ v : Str, 0 < v.length ∧ v.length ≤ m ∧ t = tree 'a' address (v, []) := by
  induction m with
  | zero => simp [sample] at h
  | succ m ih =>
    rcases List.mem_append.mp h with h | h
    · obtain ⟨v, h1, h2, h3⟩ := ih h
      exact ⟨v, h1, by omega, h3⟩
    · obtain ⟨v, hv, rfl⟩ := List.mem_map.mp h
      have := (words_mem _ hv).1
      exact ⟨v, by omega, by omega, rfl⟩

theorem sample_nodup (m : Nat) : (sample m).Nodup := by
  induction m with
  | zero => simp [sample]
  | succ m ih =>
    refine List.Nodup.append ih ((words_nodup _).map fun a b h => (Prod.mk.inj (tree_inj h)).1) fun t h1 h2 => ?_
    obtain ⟨v, _, h4, rfl⟩ := sample_mem h1
    obtain ⟨v', hv', h⟩ := List.mem_map.mp h2
    have h5 := (Prod.mk.inj (tree_inj h)).1
    have := (words_mem _ hv').1
    rw [h5] at this
    omega

theorem sample_mean (hfin : ∀ w, {t | IsParse grammar (.nonterminal nPostalAddress) w t}.Finite) {q : ℚ} (hq : 0 < q)
    (h : ∀ v : Str, v ≠ [] → (∀ c ∈ v, c ∈ letters) → treeChance grammar uniformAlts (tree 'a' address (v, [])) = q * (1 / 104) ^ v.length)
    {m n : Nat} (hn : m + 10 ≤ n) :
    m * (q / 2) ≤ ((sample m).map fun t => (if treeNesting t ≤ n then treeChance grammar uniformAlts t else 0) * (trees (Spec.yield t.rhs) : ℚ)).sum := by
  induction m with
  | zero => simp [sample]
  | succ m ih =>
    rw [sample, List.map_append, List.sum_append, List.map_map]
    have h1 : (((words (m + 1)).map fun _ => q * (1 / 104) ^ (m + 1) * (2 : ℚ) ^ m).sum) ≤ ((words (m + 1)).map
        ((fun t => (if treeNesting t ≤ n then treeChance grammar uniformAlts t else 0) * (trees (Spec.yield t.rhs) : ℚ)) ∘ fun v => tree 'a' address (v, []))).sum := by
      refine sum_map_mono_rat fun v hv => ?_
      obtain ⟨h2, h3⟩ := words_mem _ hv
      have hne : v ≠ [] := by rintro rfl; simp at h2
      have h4 := tree_nesting v
      simp only [Function.comp]
      rw [if_pos (by omega), h v hne h3, h2]
      refine mul_le_mul_of_nonneg_left ?_ (by positivity)
      have h5 := trees_ge hfin (c := 'a') (by decide) hne h3 address_forest
      have h6 : Spec.yield (tree 'a' address (v, [])).rhs = v ++ 'a' :: ';' :: Spec.yield address := by
        simp [tree, Spec.yield, name_yield]
      rw [h6]
      rw [h2, Nat.add_sub_cancel] at h5
      exact_mod_cast h5
    have h2 : (((words (m + 1)).map fun _ => q * (1 / 104) ^ (m + 1) * (2 : ℚ) ^ m).sum) = q / 2 := by
      rw [List.map_const', List.sum_replicate, words_length, nsmul_eq_mul]
      push_cast
      have : ∀ a b : ℚ, a ^ (m + 1) * (q * b ^ (m + 1) * 2 ^ m) = q / 2 * (a * b * 2) ^ (m + 1) := fun a b => by ring
      rw [this]
      norm_num
    have h3 := ih (by omega)
    push_cast
    rw [add_mul, one_mul]
    linarith

end Bnf.Spec.Postal
