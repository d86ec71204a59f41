import Mathlib.Tactic.Common
import Verif.Model.Earley
import Verif.Spec.Derivation

namespace Bnf

@[simp] theorem byteLen_append (s t : Str) : byteLen (s ++ t) = byteLen s + byteLen t := by
  induction s with
  | nil => simp [byteLen]
  | cons c cs ih => simp [byteLen, ih]; omega

theorem byteLen_pos_of_ne_nil {s : Str} (h : s ≠ []) : 0 < byteLen s := by
  cases s with
  | nil => exact absurd rfl h
  | cons c cs => have := Char.utf8Size_pos c; simp [byteLen]; omega

theorem byteLen_eq_zero {s : Str} (h : byteLen s = 0) : s = [] := by
  by_contra hne
  have := byteLen_pos_of_ne_nil hne
  omega

@[simp] theorem getFrom_zero (s : Str) : getFrom s 0 = some s := by
  cases s <;> rfl

theorem getFrom_cons_size (c : Char) (cs : Str) (k : Nat) :
    getFrom (c :: cs) (c.utf8Size + k) = getFrom cs k := by
  have := Char.utf8Size_pos c
  obtain ⟨m, hm⟩ : ∃ m, c.utf8Size + k = m + 1 := ⟨c.utf8Size + k - 1, by omega⟩
  rw [hm, getFrom, if_neg (by omega)]
  congr 1
  omega

/-- If the text from offset `i` starts with `u`, the text after `u` is at `i + byteLen u`. -/
theorem getFrom_append_left (u r : Str) : getFrom (u ++ r) (byteLen u) = some r := by
  induction u with
  | nil => simp [byteLen]
  | cons c cs ih => simp only [byteLen, List.cons_append, getFrom_cons_size]; exact ih

theorem getFrom_split {s r : Str} {i : Nat} : getFrom s i = some r ↔ ∃ u, s = u ++ r ∧ i = byteLen u := by
  constructor
  · intro h
    induction s generalizing i with
    | nil =>
      cases i with
      | zero => simp at h; exact ⟨[], by simp [← h], rfl⟩
      | succ n => simp [getFrom] at h
    | cons c cs ih =>
      cases i with
      | zero => simp at h; exact ⟨[], by simp [← h], rfl⟩
      | succ n =>
        rw [getFrom] at h
        split at h
        · cases h
        · obtain ⟨u, hu, hi⟩ := ih h
          exact ⟨c :: u, by simp [hu], by simp [byteLen]; omega⟩
  · rintro ⟨u, rfl, rfl⟩
    exact getFrom_append_left u r

theorem getFrom_add {s u r : Str} {i : Nat} (h : getFrom s i = some (u ++ r)) :
    getFrom s (i + byteLen u) = some r := by
  obtain ⟨v, rfl, rfl⟩ := getFrom_split.mp h
  exact getFrom_split.mpr ⟨v ++ u, by simp, by simp⟩

theorem getFrom_len {s r : Str} {i : Nat} (h : getFrom s i = some r) : i + byteLen r = byteLen s := by
  obtain ⟨v, rfl, rfl⟩ := getFrom_split.mp h
  simp

theorem startsWith_iff {s p : Str} : startsWith s p = true ↔ ∃ r, s = p ++ r := by
  unfold startsWith
  rw [List.isPrefixOf_iff_prefix]
  constructor
  · rintro ⟨r, rfl⟩; exact ⟨r, rfl⟩
  · rintro ⟨r, rfl⟩; exact ⟨r, rfl⟩

section AMap
variable {K V : Type} [DecidableEq K]

theorem AMap.get_set (m : AMap K V) (k k' : K) (v : V) :
    (m.set k v).get k' = if k = k' then some v else m.get k' := rfl

end AMap

theorem mem_setInsert {α : Type} [DecidableEq α] {l : List α} {a b : α} :
    b ∈ setInsert l a ↔ b ∈ l ∨ b = a := by
  unfold setInsert
  split
  · constructor
    · exact Or.inl
    · rintro (h | rfl) <;> assumption
  · simp

end Bnf
