import Verif.Model.Views
import Verif.Proofs.Basic

/-! # `Debug` of ranges, orders -/

set_option autoImplicit false

namespace Bnf

theorem getTo_append (u r : Str) : getTo (u ++ r) (byteLen u) = some u := by
  induction u with
  | nil => cases r <;> simp [getTo, byteLen]
  | cons c cs ih =>
    have hc : 0 < c.utf8Size := c.utf8Size_pos
    obtain ⟨k, hk⟩ : ∃ k, byteLen (c :: cs) = k + 1 := ⟨c.utf8Size + byteLen cs - 1, by simp only [byteLen]; omega⟩
    rw [hk, List.cons_append, getTo, if_neg (by simp only [byteLen] at hk; omega)]
    have : k + 1 - c.utf8Size = byteLen cs := by simp only [byteLen] at hk; omega
    rw [this, ih]
    rfl

/-! ## Lexicographic comparison -/

/-- A comparison function that comes from a linear order. -/
structure LinearCmp {α : Type} (cmp : α → α → Ordering) : Prop where
  eq_iff : ∀ a b, cmp a b = .eq ↔ a = b
  swap : ∀ a b, cmp a b = .lt ↔ cmp b a = .gt
  trans : ∀ a b c, cmp a b = .lt → cmp b c = .lt → cmp a c = .lt

theorem LinearCmp.list {α : Type} {cmp : α → α → Ordering} (h : LinearCmp cmp) : LinearCmp (cmpList cmp) where
  eq_iff := by
    intro a
    induction a with
    | nil => intro b; cases b <;> simp [cmpList]
    | cons x a ih =>
      intro b
      cases b with
      | nil => simp [cmpList]
      | cons y b =>
        rw [cmpList, List.cons.injEq, ← h.eq_iff x y, ← ih]
        cases cmp x y <;> simp
  swap := by
    intro a
    induction a with
    | nil => intro b; cases b <;> simp [cmpList]
    | cons x a ih =>
      intro b
      cases b with
      | nil => simp [cmpList]
      | cons y b =>
        rw [cmpList, cmpList]
        have h1 := h.swap x y
        have h2 := h.swap y x
        have h3 := h.eq_iff x y
        have h4 := h.eq_iff y x
        cases hx : cmp x y <;> cases hy : cmp y x <;> simp_all
  trans := by
    intro a
    induction a with
    | nil =>
      intro b c
      cases b with
      | nil => simp [cmpList]
      | cons y b => cases c <;> simp [cmpList]
    | cons x a ih =>
      intro b c
      cases b with
      | nil => simp [cmpList]
      | cons y b =>
        cases c with
        | nil => simp [cmpList]
        | cons z c =>
          simp only [cmpList]
          intro h1 h2
          cases hx : cmp x y with
          | gt => rw [hx] at h1; cases h1
          | eq =>
            rw [hx] at h1
            rw [(h.eq_iff x y).mp hx]
            cases hy : cmp y z with
            | gt => rw [hy] at h2; cases h2
            | lt => rfl
            | eq => rw [hy] at h2; exact ih b c h1 h2
          | lt =>
            cases hy : cmp y z with
            | gt => rw [hy] at h2; cases h2
            | eq => rw [← (h.eq_iff y z).mp hy, hx]
            | lt => rw [h.trans x y z hx hy]

/-- Comparison of characters by code points. -/
def cmpChar (a b : Char) : Ordering := if a.toNat < b.toNat then .lt else if a.toNat = b.toNat then .eq else .gt

theorem cmpNat_linear {α : Type} (f : α → Nat) (hf : ∀ a b, f a = f b → a = b) :
    LinearCmp (fun a b : α => if f a < f b then Ordering.lt else if f a = f b then .eq else .gt) where
  eq_iff a b := by
    constructor
    · intro h
      apply hf
      split at h
      · cases h
      · split at h
        · assumption
        · cases h
    · rintro rfl; simp
  swap a b := by split_ifs <;> simp <;> omega
  trans a b c := by split_ifs <;> simp <;> omega

theorem cmpChar_linear : LinearCmp cmpChar := cmpNat_linear Char.toNat (fun _ _ h => Char.ext (UInt32.toNat_inj.mp h))

theorem cmpByte_linear : LinearCmp cmpByte := cmpNat_linear UInt8.toNat (fun _ _ h => UInt8.toNat_inj.mp h)

/-! ## UTF-8 keeps the order -/

/-- The bytes of a character as numbers. -/
def encode (v : Nat) : List Nat :=
  if v ≤ 0x7f then [v] else if v ≤ 0x7ff then [v / 64 + 0xc0, v % 64 + 0x80]
  else if v ≤ 0xffff then [v / 4096 + 0xe0, v / 64 % 64 + 0x80, v % 64 + 0x80]
  else [v / 262144 + 0xf0, v / 4096 % 64 + 0x80, v / 64 % 64 + 0x80, v % 64 + 0x80]

theorem encode_char (c : Char) : (String.utf8EncodeChar c).map UInt8.toNat = encode c.toNat := by
  have hv : c.toNat < 0x110000 := by
    have := c.valid
    simp only [UInt32.isValidChar, Nat.isValidChar] at this
    show c.val.toNat < _
    omega
  have hc : c.val.toNat = c.toNat := rfl
  unfold String.utf8EncodeChar encode
  simp only [hc]
  split
  · simp; omega
  · split
    · simp; omega
    · split
      · simp; omega
      · simp; omega

def cmpNat (a b : Nat) : Ordering := if a < b then .lt else if a = b then .eq else .gt

theorem cmpList_map (s t : List UInt8) : cmpList cmpByte s t = cmpList cmpNat (s.map UInt8.toNat) (t.map UInt8.toNat) := by
  induction s generalizing t with
  | nil => cases t <;> simp [cmpList]
  | cons a s ih =>
    cases t with
    | nil => simp [cmpList]
    | cons b t =>
      simp only [cmpList, List.map_cons, ih]
      rfl

theorem cmpNat_lt {a b : Nat} (h : a < b) : cmpNat a b = .lt := by simp [cmpNat, h]
theorem cmpNat_gt {a b : Nat} (h : b < a) : cmpNat a b = .gt := by
  unfold cmpNat; rw [if_neg (by omega), if_neg (by omega)]
theorem cmpNat_eq (a : Nat) : cmpNat a a = .eq := by simp [cmpNat]

theorem cmpList_same {α : Type} {cmp : α → α → Ordering} (h : ∀ a, cmp a a = .eq) (u s t : List α) :
    cmpList cmp (u ++ s) (u ++ t) = cmpList cmp s t := by
  induction u with
  | nil => rfl
  | cons a u ih => simp only [List.cons_append, cmpList, h, ih]

/-- Encodings of different characters differ in a way that decides the comparison as the code points do. -/
theorem encode_lt {v w : Nat} (h : v < w) (hw : w < 0x110000) (s t : List Nat) : cmpList cmpNat (encode v ++ s) (encode w ++ t) = .lt := by
  have key : ∀ (a b : Nat) (as bs : List Nat), (a < b ∨ (a = b ∧ cmpList cmpNat as bs = .lt)) → cmpList cmpNat (a :: as) (b :: bs) = .lt := by
    intro a b as bs h
    rcases h with h | ⟨rfl, h⟩
    · simp only [cmpList, cmpNat_lt h]
    · simp only [cmpList, cmpNat_eq, h]
  unfold encode
  split_ifs <;> simp only [List.cons_append, List.nil_append] <;> first | omega | skip
  all_goals apply key
  · left; omega
  · left; omega
  · left; omega
  · left; omega
  · by_cases h1 : v / 64 = w / 64
    · right; refine ⟨by omega, key _ _ _ _ (.inl (by omega))⟩
    · left; omega
  · left; omega
  · left; omega
  · by_cases h1 : v / 4096 = w / 4096
    · right; refine ⟨by omega, key _ _ _ _ ?_⟩
      by_cases h2 : v / 64 = w / 64
      · right; refine ⟨by omega, key _ _ _ _ (.inl (by omega))⟩
      · left; omega
    · left; omega
  · left; omega
  · by_cases h1 : v / 262144 = w / 262144
    · right; refine ⟨by omega, key _ _ _ _ ?_⟩
      by_cases h2 : v / 4096 = w / 4096
      · right; refine ⟨by omega, key _ _ _ _ ?_⟩
        by_cases h3 : v / 64 = w / 64
        · right; refine ⟨by omega, key _ _ _ _ (.inl (by omega))⟩
        · left; omega
      · left; omega
    · left; omega

theorem encode_gt {v w : Nat} (h : w < v) (hv : v < 0x110000) (s t : List Nat) : cmpList cmpNat (encode v ++ s) (encode w ++ t) = .gt :=
  (((cmpNat_linear (fun n : Nat => n) (fun _ _ h => h)).list).swap _ _).mp (encode_lt h hv t s)

theorem encode_ne_nil (v : Nat) : encode v ≠ [] := by unfold encode; split_ifs <;> simp

theorem bytes_encode (s : Str) : (bytes s).map UInt8.toNat = s.flatMap fun c => encode c.toNat := by
  induction s with
  | nil => rfl
  | cons c s ih => simp only [bytes, List.flatMap_cons, List.map_append, encode_char] at ih ⊢; rw [ih]

theorem char_lt (c : Char) : c.toNat < 0x110000 := by
  have := c.valid
  simp only [UInt32.isValidChar, Nat.isValidChar] at this
  show c.val.toNat < _
  omega

/-- Strings compare as sequences of code points. -/
theorem cmpString_eq (s t : Str) : cmpString s t = cmpList cmpChar s t := by
  unfold cmpString
  rw [cmpList_map, bytes_encode, bytes_encode]
  induction s generalizing t with
  | nil =>
    cases t with
    | nil => rfl
    | cons d t =>
      simp only [List.flatMap_nil, List.flatMap_cons, cmpList]
      cases he : encode d.toNat with
      | nil => exact absurd he (encode_ne_nil _)
      | cons a as => rfl
  | cons c s ih =>
    cases t with
    | nil =>
      simp only [List.flatMap_nil, List.flatMap_cons, cmpList]
      cases he : encode c.toNat with
      | nil => exact absurd he (encode_ne_nil _)
      | cons a as => rfl
    | cons d t =>
      simp only [List.flatMap_cons, cmpList]
      rcases Nat.lt_trichotomy c.toNat d.toNat with h | h | h
      · rw [encode_lt h (char_lt d)]; simp [cmpChar, h]
      · rw [h, cmpList_same cmpNat_eq, ih]; simp [cmpChar, h]
      · rw [encode_gt h (char_lt c)]
        unfold cmpChar
        rw [if_neg (by omega), if_neg (by omega)]

theorem cmpString_linear : LinearCmp cmpString := by
  have : cmpString = cmpList cmpChar := by funext s t; exact cmpString_eq s t
  rw [this]
  exact cmpChar_linear.list

theorem cmpTerm_linear : LinearCmp cmpTerm where
  eq_iff a b := by cases a <;> cases b <;> simp [cmpTerm, cmpString_linear.eq_iff]
  swap a b := by cases a <;> cases b <;> simp [cmpTerm, cmpString_linear.swap]
  trans a b c := by
    cases a <;> cases b <;> cases c <;> simp only [cmpTerm, reduceCtorEq, false_implies, implies_true] <;> exact cmpString_linear.trans _ _ _

theorem cmpExpression_linear : LinearCmp cmpExpression where
  eq_iff a b := by
    rw [cmpExpression, cmpTerm_linear.list.eq_iff]
    cases a; cases b; simp
  swap a b := cmpTerm_linear.list.swap _ _
  trans a b c := cmpTerm_linear.list.trans _ _ _

end Bnf
