import Verif.Proofs.Bytes

/-!
# Property C133: on bytes the code does what the model says about characters

`bytes s` are the bytes of the `str` with the characters `s`.  The functions ending in `B` (`Model/Bytes`) are those of the standard library and of the
parser on bytes.
-/

set_option autoImplicit false

namespace Bnf.Props
open Bnf Spec Nom

/-- C133: equal bytes are equal characters, and `len` is the number of bytes. -/
theorem C133_equal (s t : Str) : (bytes s = bytes t ↔ s = t) ∧ (bytes s).length = byteLen s :=
  ⟨⟨bytes_inj, fun h => by rw [h]⟩, bytes_length s⟩

/-- C133: reading characters from the bytes gives the characters, one after the other. -/
theorem C133_chars (s : Str) : nextCodePoint (bytes s) = match s with
    | [] => none
    | c :: r => some (c.toNat, bytes r) := by
  cases s with
  | nil => rfl
  | cons c r => exact nextCodePoint_cons c (bytes r)

/-- C133: `get` finds the same text, at offsets between characters, and nothing at the others. -/
theorem C133_get (s : Str) (i : Nat) :
    (∀ t, getFromB (bytes s) i = some t ↔ ∃ u v, s = u ++ v ∧ (bytes u).length = i ∧ t = bytes v) ∧
    (∀ t, getToB (bytes s) i = some t ↔ ∃ u v, s = u ++ v ∧ (bytes u).length = i ∧ t = bytes u) ∧
    getFromB (bytes s) i = (getFrom s i).map bytes ∧ getToB (bytes s) i = (getTo s i).map bytes := by
  have hb : isCharBoundary (bytes s) i = true ↔ ∃ u v, s = u ++ v ∧ (bytes u).length = i := by
    constructor
    · intro h
      have h1 := getFromB_eq s i
      rw [getFromB, if_pos h] at h1
      cases hg : getFrom s i with
      | none => rw [hg] at h1; cases h1
      | some v =>
        obtain ⟨u, h2, h3⟩ := getFrom_split.mp hg
        exact ⟨u, v, h2, by rw [bytes_length, ← h3]⟩
    · rintro ⟨u, v, rfl, rfl⟩
      have h1 := getFromB_eq (u ++ v) (bytes u).length
      rw [bytes_length, getFrom_append_left] at h1
      rw [bytes_length]
      by_contra hn
      rw [getFromB, if_neg hn] at h1
      cases h1
  refine ⟨fun t => ?_, fun t => ?_, getFromB_eq s i, getToB_eq s i⟩
  · unfold getFromB
    constructor
    · intro h
      split at h
      · rename_i hc
        obtain ⟨u, v, rfl, rfl⟩ := hb.mp hc
        injection h with h
        exact ⟨u, v, rfl, rfl, by rw [← h, bytes_append, List.drop_left]⟩
      · cases h
    · rintro ⟨u, v, h1, h2, rfl⟩
      rw [if_pos (hb.mpr ⟨u, v, h1, h2⟩), h1, ← h2, bytes_append, List.drop_left]
  · unfold getToB
    constructor
    · intro h
      split at h
      · rename_i hc
        obtain ⟨u, v, rfl, rfl⟩ := hb.mp hc
        injection h with h
        exact ⟨u, v, rfl, rfl, by rw [← h, bytes_append, List.take_left]⟩
      · cases h
    · rintro ⟨u, v, h1, h2, rfl⟩
      rw [if_pos (hb.mpr ⟨u, v, h1, h2⟩), h1, ← h2, bytes_append, List.take_left]

/-- C133: a text begins with another one in bytes exactly if it does in characters: no encoding of a character begins with that of another one. -/
theorem C133_starts_with (s p : Str) : startsWithB (bytes s) (bytes p) = true ↔ ∃ r, s = p ++ r := by
  rw [startsWithB_eq, startsWith, List.isPrefixOf_iff_prefix]
  exact ⟨fun ⟨r, h⟩ => ⟨r, h.symm⟩, fun ⟨r, h⟩ => ⟨r, h.symm⟩⟩

/-- C133: `find` never finds anything in the middle of a character: the offset is that of the first occurrence in characters. -/
theorem C133_find (p s : Str) (i : Nat) : findB (bytes p) (bytes s) = some i ↔
    ∃ u v, s = u ++ (p ++ v) ∧ i = (bytes u).length ∧ ∀ u' v', s = u' ++ (p ++ v') → u.length ≤ u'.length := by
  rw [findB_eq, Option.map_eq_some_iff]
  constructor
  · rintro ⟨k, hk, rfl⟩
    obtain ⟨u, v, rfl, rfl, h⟩ := findC_some.mp hk
    exact ⟨u, v, rfl, by rw [List.take_left, bytes_length], h⟩
  · rintro ⟨u, v, rfl, rfl, h⟩
    exact ⟨u.length, findC_some.mpr ⟨u, v, rfl, rfl, h⟩, by rw [List.take_left, bytes_length]⟩

/-- C133: `tag` and `take_until` of the text parser, which split the text at byte offsets, do what the model's versions on characters do. -/
theorem C133_text (t : Str) (c : Char) (s : Str) :
    (tagB (bytes t) (bytes s) = match tag t s with
      | .ok r _ => some (bytes r, bytes t)
      | _ => none) ∧
    (takeUntilB (bytes [c]) (bytes s) = match takeUntil c s with
      | .ok r v => some (bytes r, bytes v)
      | _ => none) := by
  constructor
  · have htag : ∀ (t s : Str), (∃ r, s = t ++ r ∧ tag t s = .ok r ()) ∨ ((¬ ∃ r, s = t ++ r) ∧ tag t s = .err) := by
      intro t
      induction t with
      | nil => exact fun s => .inl ⟨s, rfl, rfl⟩
      | cons d t ih =>
        intro s
        cases s with
        | nil => exact .inr ⟨by simp, rfl⟩
        | cons e s =>
          by_cases hde : d = e
          · subst hde
            rcases ih s with ⟨r, h1, h2⟩ | ⟨h1, h2⟩
            · exact .inl ⟨r, by rw [h1]; rfl, by rw [tag, if_pos rfl, h2]⟩
            · exact .inr ⟨fun ⟨r, hr⟩ => h1 ⟨r, by simpa using hr⟩, by rw [tag, if_pos rfl, h2]⟩
          · exact .inr ⟨fun ⟨r, hr⟩ => hde (by simp at hr; exact hr.1.symm), by rw [tag, if_neg hde]⟩
    unfold tagB
    rcases htag t s with ⟨r, rfl, h⟩ | ⟨h, h'⟩
    · rw [if_pos ((C133_starts_with _ _).mpr ⟨r, rfl⟩), h, bytes_append, List.drop_left, List.take_left]
    · rw [if_neg (fun hc => h ((C133_starts_with _ _).mp hc)), h']
  · unfold takeUntilB takeUntil
    rw [findB_eq, findC_char]
    by_cases h : c ∈ s
    · have h1 : s.take (s.takeWhile (· ≠ c)).length = s.takeWhile (· ≠ c) := List.prefix_iff_eq_take.mp (List.takeWhile_prefix _) |>.symm
      have h2 : bytes s = bytes (s.takeWhile (· ≠ c)) ++ bytes (s.dropWhile (· ≠ c)) := by rw [← bytes_append, List.takeWhile_append_dropWhile]
      simp only [if_pos h, Option.map_some]
      rw [h1, ← bytes_length, h2, List.drop_left, List.take_left]
    · simp [h]

/-- C133: every call of `next()`, on any grammar and in any state that calls can lead to, is the same on bytes as on characters: the same answer after
the same number of rounds, and the same state. -/
theorem C133_parsing {g S input it it'} (ho : Opened g S input it) (hr : Reach it it') (fuel : Nat) :
    it'.nextB (bytes input) fuel = it'.next fuel := by
  have hi := hr.inv ho.inv.1
  unfold ParseTreeIter.nextB ParseTreeIter.next
  rw [earleyB_eq (input := input) fuel fun k tr hk => (hi.inv.s.entries k tr hk).input_eq]
  rfl

/-- C133: inserting into a sorted vector of ids gives the same, whichever of the results that its documentation allows `binary_search` returns. -/
theorem C133_insert {v : List Nat} (hv : v.Pairwise (· < ·)) {x : Nat} {r : Except Nat Nat} (h : BinarySearch v x r) :
    insertFound v x r = sortedVecInsert v x ∧ (insertFound v x r).Pairwise (· < ·) ∧ ∀ y, y ∈ insertFound v x r ↔ y = x ∨ y ∈ v := by
  refine ⟨insertFound_eq hv h, ?_, ?_⟩
  · cases h with
    | found _ => exact hv
    | @missing i _ h1 h2 =>
      have hs := hv
      rw [← List.take_append_drop i v, List.pairwise_append] at hs
      simp only [insertFound, List.pairwise_append, List.pairwise_cons]
      refine ⟨hs.1, ⟨h2, hs.2.1⟩, fun a ha b hb => ?_⟩
      rcases List.mem_cons.mp hb with rfl | hb
      · exact h1 a ha
      · exact hs.2.2 a ha b hb
  · intro y
    cases h with
    | found h =>
      have hx : x ∈ v := List.mem_of_getElem? h
      exact ⟨.inr, fun hy => hy.elim (fun e => by rw [e]; exact hx) id⟩
    | @missing i _ h1 h2 =>
      have : y ∈ v ↔ y ∈ v.take i ∨ y ∈ v.drop i := by rw [← List.mem_append, List.take_append_drop]
      simp only [insertFound, List.mem_append, List.mem_cons, this]
      tauto

/-- `é` has two bytes; between them there is no boundary, and `get` finds nothing. The bytes of `¬é` contain those of no other character. -/
example : bytes ['é', 'a'] = [0xc3, 0xa9, 0x61] ∧ getFromB (bytes ['é', 'a']) 1 = none ∧ getFromB (bytes ['é', 'a']) 2 = some [0x61] ∧
    getToB (bytes ['é', 'a']) 2 = some [0xc3, 0xa9] ∧ findB (bytes ['a']) (bytes ['é', 'a']) = some 2 ∧ findB (bytes ['©']) (bytes ['é', 'a']) = none := by
  decide
/-- One character each of one to four bytes. -/
example : nextCodePoint [0x61] = some (0x61, []) ∧ nextCodePoint [0xc3, 0xa9, 0x61] = some (0xe9, [0x61]) ∧
    nextCodePoint [0xe2, 0x82, 0xac] = some (0x20ac, []) ∧ nextCodePoint [0xf0, 0x9f, 0x98, 0x80] = some (0x1f600, []) := by decide
/-- In an encoding without this property a text could be found in the middle of a character: the last byte of `é` is found in it. -/
example : findB [0xa9] (bytes ['é', 'a']) = some 1 := by decide
/-- A search in a sorted slice: the element is there, or it is to be inserted at its place. -/
example : BinarySearch [1, 4, 6] 4 (.ok 1) ∧ BinarySearch [1, 4, 6] 5 (.error 2) := ⟨.found rfl, .missing (by decide) (by decide) (by decide)⟩
/-- `<s> ::= 'é' <s> | 'a'` on "éa", on bytes. -/
def gAccent : Grammar := ⟨[⟨.nonterminal ['s'], [⟨[.terminal ['é'], .nonterminal ['s']]⟩, ⟨[.terminal ['a']]⟩]⟩]⟩
set_option maxRecDepth 100000 in
example : ∃ it it', Opened gAccent (.nonterminal ['s']) ['é', 'a'] it ∧ it.nextB [0xc3, 0xa9, 0x61] 100 =
    .returned (some ⟨.nonterminal ['s'], [.terminal ['é'], .nonterminal (.nonterminal ['s']) [.terminal ['a']]]⟩, it') :=
  ⟨_, _, .deprecatedStarting rfl, by rfl⟩

end Bnf.Props
