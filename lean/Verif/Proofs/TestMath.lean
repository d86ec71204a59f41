import Verif.Proofs.TestGrammars

/-! # Arithmetic expressions have one derivation: the grammar of the test `math`, and prefix notation -/

set_option autoImplicit false

namespace Bnf.Samples
open Spec

namespace Math

abbrev sum : Str := ['s', 'u', 'm']
abbrev add : Str := ['a', 'd', 'd']
abbrev product : Str := ['p', 'r', 'o', 'd', 'u', 'c', 't']
abbrev mult : Str := ['m', 'u', 'l', 't']
abbrev factor : Str := ['f', 'a', 'c', 't', 'o', 'r']
abbrev number : Str := ['n', 'u', 'm', 'b', 'e', 'r']
abbrev digit : Str := ['d', 'i', 'g', 'i', 't']

def IsDigit (c : Char) : Prop := c ∈ ['0', '1', '2', '3', '4', '5', '6', '7', '8', '9']

instance (c : Char) : Decidable (IsDigit c) := by unfold IsDigit; infer_instance

theorem digit_kids {kids} : KidsOf gramMath digit kids ↔ ∃ c, IsDigit c ∧ kids = [.terminal [c]] := by
  kids_simp rulesMath
  simp only [IsDigit, List.mem_cons, List.not_mem_nil, or_false]
  constructor
  · rintro (h | h | h | h | h | h | h | h | h | h) <;> exact ⟨_, by simp, h⟩
  · rintro ⟨c, rfl | rfl | rfl | rfl | rfl | rfl | rfl | rfl | rfl | rfl, h⟩ <;> simp [h]

theorem add_kids {kids} : KidsOf gramMath add kids ↔ ∃ c, (c = '+' ∨ c = '-') ∧ kids = [.terminal [c]] := by
  kids_simp rulesMath

theorem mult_kids {kids} : KidsOf gramMath mult kids ↔ ∃ c, (c = '*' ∨ c = '/') ∧ kids = [.terminal [c]] := by
  kids_simp rulesMath

theorem sum_kids {kids} : KidsOf gramMath sum kids ↔
    (∃ k o p, kids = [nd sum k, nd add o, nd product p] ∧ KidsOf gramMath sum k ∧ KidsOf gramMath add o ∧ KidsOf gramMath product p) ∨
    ∃ p, kids = [nd product p] ∧ KidsOf gramMath product p := by
  kids_simp rulesMath

theorem product_kids {kids} : KidsOf gramMath product kids ↔
    (∃ k o f, kids = [nd product k, nd mult o, nd factor f] ∧ KidsOf gramMath product k ∧ KidsOf gramMath mult o ∧ KidsOf gramMath factor f) ∨
    ∃ f, kids = [nd factor f] ∧ KidsOf gramMath factor f := by
  kids_simp rulesMath

theorem factor_kids {kids} : KidsOf gramMath factor kids ↔
    (∃ s, kids = [.terminal ['('], nd sum s, .terminal [')']] ∧ KidsOf gramMath sum s) ∨ ∃ n, kids = [nd number n] ∧ KidsOf gramMath number n := by
  kids_simp rulesMath

theorem number_kids {kids} : KidsOf gramMath number kids ↔
    (∃ d n, kids = [nd digit d, nd number n] ∧ KidsOf gramMath digit d ∧ KidsOf gramMath number n) ∨ ∃ d, kids = [nd digit d] ∧ KidsOf gramMath digit d := by
  kids_simp rulesMath

/-- The longest number at the front. -/
def readNumber : Str → Option (List ParseTreeNode × Str)
  | [] => none
  | c :: s =>
    if IsDigit c then
      match readNumber s with
      | some (k, r) => some ([nd digit [.terminal [c]], nd number k], r)
      | none => some ([nd digit [.terminal [c]]], s)
    else none

/-- The text does not start with one of these characters. -/
def NotFirst (P : Char → Prop) (s : Str) : Prop := ∀ c s', s = c :: s' → ¬ P c

theorem readNumber_kids : ∀ (k : Nat) (kids : List ParseTreeNode), sizeOf kids ≤ k → KidsOf gramMath number kids → ∀ r, NotFirst IsDigit r →
    readNumber (yield kids ++ r) = some (kids, r)
  | 0, kids, hk => by cases kids <;> simp at hk
  | k + 1, kids, hk => by
    intro h r hr
    rcases number_kids.mp h with ⟨d, n, rfl, hd, hn⟩ | ⟨d, rfl, hd⟩
    · obtain ⟨c, hc, rfl⟩ := digit_kids.mp hd
      simp at hk
      have := readNumber_kids k n (by omega) hn r hr
      simp [yield, nodeYield, readNumber, hc, this]
    · obtain ⟨c, hc, rfl⟩ := digit_kids.mp hd
      have : readNumber r = none := by
        cases r with
        | nil => rfl
        | cons c' s => simp [readNumber, hr c' s rfl]
      simp [yield, nodeYield, readNumber, hc, this]

/-- What is read: a factor, a product, the rest of a product after its first factors, and the same for sums. -/
inductive Part where
  | factor
  | product
  | products (acc : List ParseTreeNode)
  | sum
  | sums (acc : List ParseTreeNode)

def IsMult (c : Char) : Prop := c = '*' ∨ c = '/'
def IsAdd (c : Char) : Prop := c = '+' ∨ c = '-'

/-- Reading from left to right, looking one character ahead. -/
inductive Read : Part → Str → List ParseTreeNode → Str → Prop
  | number {s k r} : readNumber s = some (k, r) → Read .factor s [nd number k] r
  | group {s k r} : Read .sum s k (')' :: r) → Read .factor ('(' :: s) [.terminal ['('], nd sum k, .terminal [')']] r
  | product {s f r k r'} : Read .factor s f r → Read (.products [nd factor f]) r k r' → Read .product s k r'
  | mult {acc c s f r k r'} : IsMult c → Read .factor s f r → Read (.products [nd product acc, nd mult [.terminal [c]], nd factor f]) r k r' →
      Read (.products acc) (c :: s) k r'
  | noMult {acc s} : NotFirst IsMult s → Read (.products acc) s acc s
  | sum {s p r k r'} : Read .product s p r → Read (.sums [nd product p]) r k r' → Read .sum s k r'
  | add {acc c s p r k r'} : IsAdd c → Read .product s p r → Read (.sums [nd sum acc, nd add [.terminal [c]], nd product p]) r k r' →
      Read (.sums acc) (c :: s) k r'
  | noAdd {acc s} : NotFirst IsAdd s → Read (.sums acc) s acc s

theorem read_unique {q s k r} (h : Read q s k r) : ∀ {k' r'}, Read q s k' r' → k = k' ∧ r = r' := by
  induction h with
  | number h =>
    intro k' r' h'
    cases h' with
    | number h' => rw [h] at h'; cases h'; exact ⟨rfl, rfl⟩
    | group h' => simp [readNumber, IsDigit] at h
  | group h ih =>
    intro k' r' h'
    cases h' with
    | number h' => simp [readNumber, IsDigit] at h'
    | group h' =>
      obtain ⟨rfl, h2⟩ := ih h'
      cases h2
      exact ⟨rfl, rfl⟩
  | product _ _ ih1 ih2 =>
    intro k' r' h'
    cases h' with
    | product h1 h2 =>
      obtain ⟨rfl, rfl⟩ := ih1 h1
      exact ih2 h2
  | mult hc _ _ ih1 ih2 =>
    intro k' r' h'
    cases h' with
    | mult _ h1 h2 =>
      obtain ⟨rfl, rfl⟩ := ih1 h1
      exact ih2 h2
    | noMult h1 => exact absurd hc (h1 _ _ rfl)
  | noMult hn =>
    intro k' r' h'
    cases h' with
    | mult hc _ _ => exact absurd hc (hn _ _ rfl)
    | noMult h1 => exact ⟨rfl, rfl⟩
  | sum _ _ ih1 ih2 =>
    intro k' r' h'
    cases h' with
    | sum h1 h2 =>
      obtain ⟨rfl, rfl⟩ := ih1 h1
      exact ih2 h2
  | add hc _ _ ih1 ih2 =>
    intro k' r' h'
    cases h' with
    | add _ h1 h2 =>
      obtain ⟨rfl, rfl⟩ := ih1 h1
      exact ih2 h2
    | noAdd h1 => exact absurd hc (h1 _ _ rfl)
  | noAdd hn =>
    intro k' r' h'
    cases h' with
    | add hc _ _ => exact absurd hc (hn _ _ rfl)
    | noAdd h1 => exact ⟨rfl, rfl⟩

theorem notFirst_cons {P : Char → Prop} {c : Char} {s : Str} (h : ¬ P c) : NotFirst P (c :: s) := by
  intro c' s' h'
  cases h'
  exact h

theorem read_kids : ∀ (n : Nat),
    (∀ kids, sizeOf kids ≤ n → KidsOf gramMath factor kids → ∀ r, NotFirst IsDigit r → Read .factor (yield kids ++ r) kids r) ∧
    (∀ kids, sizeOf kids ≤ n → KidsOf gramMath product kids → ∀ r, NotFirst IsDigit r → ∀ k' r', Read (.products kids) r k' r' →
      Read .product (yield kids ++ r) k' r') ∧
    (∀ kids, sizeOf kids ≤ n → KidsOf gramMath sum kids → ∀ r, NotFirst IsDigit r → NotFirst IsMult r → ∀ k' r', Read (.sums kids) r k' r' →
      Read .sum (yield kids ++ r) k' r')
  | 0 => ⟨fun kids hk => by cases kids <;> simp at hk, fun kids hk => by cases kids <;> simp at hk, fun kids hk => by cases kids <;> simp at hk⟩
  | n + 1 => by
    obtain ⟨ih1, ih2, ih3⟩ := read_kids n
    refine ⟨?_, ?_, ?_⟩
    · intro kids hk h r hr
      rcases factor_kids.mp h with ⟨s, rfl, hs⟩ | ⟨m, rfl, hm⟩
      · simp at hk
        have h1 := ih3 s (by omega) hs (')' :: r) (notFirst_cons (by decide)) (notFirst_cons (by simp [IsMult])) s (')' :: r)
          (.noAdd (notFirst_cons (by simp [IsAdd])))
        simpa [yield, nodeYield] using Read.group h1
      · have h1 := readNumber_kids _ m le_rfl hm r hr
        simpa [yield, nodeYield] using Read.number h1
    · intro kids hk h r hr k' r' hl
      rcases product_kids.mp h with ⟨k, o, f, rfl, h1, h2, h3⟩ | ⟨f, rfl, h3⟩
      · obtain ⟨c, hc, rfl⟩ := mult_kids.mp h2
        simp at hk
        have h4 := ih1 f (by omega) h3 r hr
        have h5 := ih2 k (by omega) h1 (c :: (yield f ++ r)) (notFirst_cons (by rcases hc with rfl | rfl <;> decide)) k' r' (.mult hc h4 hl)
        simpa [yield, nodeYield] using h5
      · simp at hk
        have h4 := ih1 f (by omega) h3 r hr
        simpa [yield, nodeYield] using Read.product h4 hl
    · intro kids hk h r hr hr' k' r' hl
      rcases sum_kids.mp h with ⟨k, o, p, rfl, h1, h2, h3⟩ | ⟨p, rfl, h3⟩
      · obtain ⟨c, hc, rfl⟩ := add_kids.mp h2
        simp at hk
        have h4 := ih2 p (by omega) h3 r hr p r (.noMult hr')
        have h5 := ih3 k (by omega) h1 (c :: (yield p ++ r)) (notFirst_cons (by rcases hc with rfl | rfl <;> decide))
          (notFirst_cons (by rcases hc with rfl | rfl <;> simp [IsMult])) k' r' (.add hc h4 hl)
        simpa [yield, nodeYield] using h5
      · simp at hk
        have h4 := ih2 p (by omega) h3 r hr p r (.noMult hr')
        simpa [yield, nodeYield] using Read.sum h4 hl

theorem notFirst_nil {P : Char → Prop} : NotFirst P [] := by
  intro c s h
  cases h

theorem sum_unique {k k' : List ParseTreeNode} (h : KidsOf gramMath sum k) (h' : KidsOf gramMath sum k') (he : yield k = yield k') : k = k' := by
  have h1 := (read_kids _).2.2 k le_rfl h [] notFirst_nil notFirst_nil k [] (.noAdd notFirst_nil)
  have h2 := (read_kids _).2.2 k' le_rfl h' [] notFirst_nil notFirst_nil k' [] (.noAdd notFirst_nil)
  rw [he] at h1
  exact (read_unique h1 h2).1

end Math

end Bnf.Samples
