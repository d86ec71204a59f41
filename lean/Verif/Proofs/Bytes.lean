import Verif.Model.Bytes
import Verif.Proofs.Views
import Verif.Proofs.Opened

/-! Texts as bytes and as characters. -/

set_option autoImplicit false

namespace Bnf
open Spec

/-! ## One character -/

/-- The first byte of a character begins it, the others do not. -/
theorem char_bytes (c : Char) : ∃ b bs, String.utf8EncodeChar c = b :: bs ∧ startsChar b = true ∧ ∀ x ∈ bs, startsChar x = false := by
  have h := encode_char c
  have hv := char_lt c
  cases he : String.utf8EncodeChar c with
  | nil => rw [he] at h; exact absurd h.symm (encode_ne_nil _)
  | cons b bs =>
    rw [he] at h
    refine ⟨b, bs, rfl, ?_⟩
    have key : ∀ (l : List UInt8) (m : List Nat), l.map UInt8.toNat = m → (∀ n ∈ m, 0x80 ≤ n ∧ n < 0xc0) → ∀ x ∈ l, startsChar x = false := by
      rintro l _ rfl hm x hx
      have := hm x.toNat (List.mem_map_of_mem hx)
      simp [startsChar]; omega
    simp only [List.map_cons, encode] at h
    split_ifs at h <;> injection h with h1 h2
    all_goals refine ⟨by simp [startsChar]; omega, key bs _ h2 ?_⟩
    all_goals intro n hn
    all_goals simp only [List.mem_cons, List.not_mem_nil, or_false] at hn
    · rcases hn with rfl; omega
    · rcases hn with rfl | rfl <;> omega
    · rcases hn with rfl | rfl | rfl <;> omega

theorem bytes_cons (c : Char) (s : Str) : bytes (c :: s) = String.utf8EncodeChar c ++ bytes s := rfl

theorem bytes_append (s t : Str) : bytes (s ++ t) = bytes s ++ bytes t := by simp [bytes]

theorem bytes_length (s : Str) : (bytes s).length = byteLen s := by
  induction s with
  | nil => rfl
  | cons c s ih => simp [bytes_cons, byteLen, ih, String.length_utf8EncodeChar]

/-- Different characters have encodings of which none begins the other. -/
theorem char_bytes_inj {c d : Char} {x y : List UInt8} (h : String.utf8EncodeChar c ++ x = String.utf8EncodeChar d ++ y) : c = d ∧ x = y := by
  have h1 : encode c.toNat ++ x.map UInt8.toNat = encode d.toNat ++ y.map UInt8.toNat := by
    rw [← encode_char, ← encode_char, ← List.map_append, ← List.map_append, h]
  have refl : ∀ l : List Nat, cmpList cmpNat l l = .eq := fun l => by
    have := cmpList_same cmpNat_eq l [] []
    simpa [cmpList] using this
  have hcd : c.toNat = d.toNat := by
    rcases Nat.lt_trichotomy c.toNat d.toNat with hl | hl | hl
    · have := encode_lt hl (char_lt d) (x.map UInt8.toNat) (y.map UInt8.toNat)
      rw [h1, refl] at this; cases this
    · exact hl
    · have := encode_lt hl (char_lt c) (y.map UInt8.toNat) (x.map UInt8.toNat)
      rw [h1, refl] at this; cases this
  have : c = d := Char.ext (UInt32.toNat_inj.mp hcd)
  subst this
  exact ⟨rfl, List.append_cancel_left h⟩

theorem bytes_ne_nil {c : Char} {s : Str} : bytes (c :: s) ≠ [] := by
  obtain ⟨b, bs, h, _⟩ := char_bytes c
  rw [bytes_cons, h]; simp

theorem bytes_prefix {p s : Str} {t : List UInt8} (h : bytes p ++ t = bytes s) : ∃ r, s = p ++ r ∧ t = bytes r := by
  induction p generalizing s with
  | nil => exact ⟨s, rfl, h⟩
  | cons c p ih =>
    cases s with
    | nil => exact absurd (List.append_eq_nil_iff.mp h).1 bytes_ne_nil
    | cons d s =>
      rw [bytes_cons, bytes_cons, List.append_assoc] at h
      obtain ⟨rfl, h1⟩ := char_bytes_inj h
      obtain ⟨r, rfl, h2⟩ := ih h1
      exact ⟨r, rfl, h2⟩

theorem bytes_inj {s t : Str} (h : bytes s = bytes t) : s = t := by
  obtain ⟨r, rfl, h'⟩ := bytes_prefix (p := s) (s := t) (t := []) (by rw [List.append_nil, h])
  cases r with
  | nil => simp
  | cons c r => exact absurd h'.symm bytes_ne_nil

theorem startsWithB_eq (s p : Str) : startsWithB (bytes s) (bytes p) = startsWith s p := by
  unfold startsWithB startsWith
  rw [Bool.eq_iff_iff, List.isPrefixOf_iff_prefix, List.isPrefixOf_iff_prefix]
  constructor
  · rintro ⟨t, h⟩
    obtain ⟨r, rfl, _⟩ := bytes_prefix h
    exact ⟨r, rfl⟩
  · rintro ⟨t, rfl⟩
    exact ⟨bytes t, (bytes_append p t).symm⟩

theorem nextCodePoint_cons (c : Char) (r : List UInt8) : nextCodePoint (String.utf8EncodeChar c ++ r) = some (c.toNat, r) := by
  have h := encode_char c
  have hv := char_lt c
  unfold encode at h
  split_ifs at h with h1 h2 h3
  · obtain ⟨x, l0, hb, hx, t0⟩ := List.map_eq_cons_iff.mp h
    obtain rfl := List.map_eq_nil_iff.mp t0
    simp only [hb, List.cons_append, List.nil_append, nextCodePoint]
    rw [if_pos (by omega), hx]
  · obtain ⟨x, l0, hb, hx, t0⟩ := List.map_eq_cons_iff.mp h
    obtain ⟨y, l1, rfl, hy, t1⟩ := List.map_eq_cons_iff.mp t0
    obtain rfl := List.map_eq_nil_iff.mp t1
    simp only [hb, List.cons_append, List.nil_append, nextCodePoint]
    rw [if_neg (by omega), if_pos (by omega), Option.some.injEq, Prod.mk.injEq]
    exact ⟨by omega, rfl⟩
  · obtain ⟨x, l0, hb, hx, t0⟩ := List.map_eq_cons_iff.mp h
    obtain ⟨y, l1, rfl, hy, t1⟩ := List.map_eq_cons_iff.mp t0
    obtain ⟨z, l2, rfl, hz, t2⟩ := List.map_eq_cons_iff.mp t1
    obtain rfl := List.map_eq_nil_iff.mp t2
    simp only [hb, List.cons_append, List.nil_append, nextCodePoint]
    rw [if_neg (by omega), if_neg (by omega), if_pos (by omega), Option.some.injEq, Prod.mk.injEq]
    exact ⟨by omega, rfl⟩
  · obtain ⟨x, l0, hb, hx, t0⟩ := List.map_eq_cons_iff.mp h
    obtain ⟨y, l1, rfl, hy, t1⟩ := List.map_eq_cons_iff.mp t0
    obtain ⟨z, l2, rfl, hz, t2⟩ := List.map_eq_cons_iff.mp t1
    obtain ⟨w, l3, rfl, hw, t3⟩ := List.map_eq_cons_iff.mp t2
    obtain rfl := List.map_eq_nil_iff.mp t3
    simp only [hb, List.cons_append, List.nil_append, nextCodePoint]
    rw [if_neg (by omega), if_neg (by omega), if_neg (by omega), Option.some.injEq, Prod.mk.injEq]
    exact ⟨by omega, rfl⟩

/-! ## Offsets -/

theorem boundary_nil (i : Nat) : isCharBoundary [] i = (i == 0) := by simp [isCharBoundary]

theorem boundary_first (s : Str) : isCharBoundary (bytes s) 0 = true := by simp [isCharBoundary]

theorem boundary_inside {c : Char} {s : Str} {i : Nat} (h0 : 0 < i) (h : i < c.utf8Size) : isCharBoundary (bytes (c :: s)) i = false := by
  obtain ⟨b, bs, hb, _, h2⟩ := char_bytes c
  have hl : (b :: bs).length = c.utf8Size := by rw [← hb, String.length_utf8EncodeChar]
  obtain ⟨j, rfl⟩ : ∃ j, i = j + 1 := ⟨i - 1, by omega⟩
  have hj : j < bs.length := by simp at hl; omega
  have : (bytes (c :: s))[j + 1]? = some bs[j] := by
    rw [bytes_cons, hb, List.cons_append, List.getElem?_cons_succ, List.getElem?_append_left hj, List.getElem?_eq_getElem hj]
  simp [isCharBoundary, this, h2 _ (List.getElem_mem hj)]

theorem boundary_after {c : Char} {s : Str} (i : Nat) : isCharBoundary (bytes (c :: s)) (c.utf8Size + i) = isCharBoundary (bytes s) i := by
  have hl : (String.utf8EncodeChar c).length = c.utf8Size := String.length_utf8EncodeChar c
  have hpos := Char.utf8Size_pos c
  have hget : (bytes (c :: s))[c.utf8Size + i]? = (bytes s)[i]? := by
    rw [bytes_cons, List.getElem?_append_right (by omega), hl, Nat.add_sub_cancel_left]
  have hlen : (bytes (c :: s)).length = c.utf8Size + (bytes s).length := by rw [bytes_cons, List.length_append, hl]
  unfold isCharBoundary
  rw [hget, hlen]
  cases i with
  | zero =>
    cases s with
    | nil => simp [bytes]
    | cons d s =>
      obtain ⟨b, bs, hb, h1, _⟩ := char_bytes d
      simp [bytes_cons, hb, h1]
  | succ i =>
    have : (c.utf8Size + (i + 1) == 0) = false := by simp
    rw [this]
    simp only [Bool.false_or, (by simp : (i + 1 == 0) = false)]
    cases (bytes s)[i + 1]? with
    | none => simp [Nat.add_left_cancel_iff]
    | some b => rfl

theorem getFromB_eq (s : Str) (i : Nat) : getFromB (bytes s) i = (getFrom s i).map bytes := by
  induction s generalizing i with
  | nil =>
    cases i with
    | zero => rfl
    | succ i => simp [getFromB, getFrom, bytes, isCharBoundary]
  | cons c s ih =>
    cases i with
    | zero => simp [getFromB, getFrom, isCharBoundary]
    | succ i =>
      rw [getFrom]
      split
      · rename_i h
        simp [getFromB, boundary_inside (Nat.succ_pos i) h]
      · rename_i h
        rw [← ih]
        obtain ⟨j, hj⟩ : ∃ j, i + 1 = c.utf8Size + j := ⟨i + 1 - c.utf8Size, by omega⟩
        have hl : (String.utf8EncodeChar c).length = c.utf8Size := String.length_utf8EncodeChar c
        rw [hj, Nat.add_sub_cancel_left]
        unfold getFromB
        rw [boundary_after, bytes_cons, List.drop_append, hl, Nat.add_sub_cancel_left, List.drop_eq_nil_of_le (by omega), List.nil_append]

theorem getToB_eq (s : Str) (i : Nat) : getToB (bytes s) i = (getTo s i).map bytes := by
  induction s generalizing i with
  | nil =>
    cases i with
    | zero => rfl
    | succ i => simp [getToB, getTo, bytes, isCharBoundary]
  | cons c s ih =>
    cases i with
    | zero => simp [getToB, getTo, isCharBoundary, bytes]
    | succ i =>
      rw [getTo]
      split
      · rename_i h
        simp [getToB, boundary_inside (Nat.succ_pos i) h]
      · rename_i h
        obtain ⟨j, hj⟩ : ∃ j, i + 1 = c.utf8Size + j := ⟨i + 1 - c.utf8Size, by omega⟩
        have hl : (String.utf8EncodeChar c).length = c.utf8Size := String.length_utf8EncodeChar c
        have h1 := ih j
        rw [hj, Nat.add_sub_cancel_left, Option.map_map]
        unfold getToB at h1 ⊢
        rw [boundary_after, bytes_cons, List.take_append, hl, Nat.add_sub_cancel_left, List.take_of_length_le (by omega)]
        cases ht : getTo s j with
        | none => rw [ht] at h1; split at h1 <;> simp_all
        | some u =>
          rw [ht] at h1
          split at h1
          · rename_i hb
            simp only [Option.map_some, Option.some.injEq] at h1
            simp [hb, h1, bytes_cons]
          · simp at h1

/-! ## Finding a text -/

/-- The first place at which a text is found, counted in characters. -/
def findC (p : Str) : Str → Option Nat
  | [] => if p.isPrefixOf [] then some 0 else none
  | c :: s => if p.isPrefixOf (c :: s) then some 0 else (findC p s).map (· + 1)

theorem findB_skip {b : UInt8} {p : List UInt8} (hb : startsChar b = true) : ∀ (bs text : List UInt8), (∀ x ∈ bs, startsChar x = false) →
    findB (b :: p) (bs ++ text) = (findB (b :: p) text).map (· + bs.length)
  | [], text, _ => by simp
  | x :: bs, text, h => by
    have hx := h x List.mem_cons_self
    have hne : (b == x) = false := by
      rw [beq_eq_false_iff_ne]; rintro rfl; rw [hb] at hx; cases hx
    rw [List.cons_append, findB, List.isPrefixOf, hne, findB_skip hb bs text fun y hy => h y (List.mem_cons_of_mem _ hy)]
    simp [Option.map_map, Function.comp_def, Nat.add_assoc]

theorem findB_eq (p s : Str) : findB (bytes p) (bytes s) = (findC p s).map fun k => byteLen (s.take k) := by
  induction s with
  | nil =>
    cases p with
    | nil => rfl
    | cons c p =>
      obtain ⟨b, bs, hb, _⟩ := char_bytes c
      simp [findC, bytes_cons, hb, bytes, findB, List.isPrefixOf]
  | cons c s ih =>
    have hp := startsWithB_eq (c :: s) p
    unfold startsWithB startsWith at hp
    obtain ⟨b, bs, hb, h1, h2⟩ := char_bytes c
    have hbytes : bytes (c :: s) = b :: (bs ++ bytes s) := by rw [bytes_cons, hb, List.cons_append]
    rw [hbytes] at hp
    rw [hbytes, findB, hp, findC]
    split
    · simp [byteLen]
    · rename_i hn
      cases p with
      | nil => simp at hn
      | cons d p =>
        obtain ⟨e, es, he, h3, _⟩ := char_bytes d
        have hl : bs.length + 1 = c.utf8Size := by rw [← String.length_utf8EncodeChar c, hb]; rfl
        rw [bytes_cons, he, List.cons_append, findB_skip h3 bs _ h2, ← List.cons_append, ← he, ← bytes_cons, ih]
        simp only [Option.map_map]
        congr 1
        funext k
        simp only [Function.comp_apply, List.take_succ_cons, byteLen]
        omega

theorem findC_some {p s : Str} {k : Nat} : findC p s = some k ↔ ∃ u v, s = u ++ (p ++ v) ∧ u.length = k ∧
    ∀ u' v', s = u' ++ (p ++ v') → k ≤ u'.length := by
  induction s generalizing k with
  | nil =>
    rw [findC]
    constructor
    · intro h
      split at h
      · rename_i hp
        injection h with h
        obtain ⟨v, hv⟩ := List.isPrefixOf_iff_prefix.mp hp
        exact ⟨[], v, hv.symm, h, fun _ _ _ => by omega⟩
      · cases h
    · rintro ⟨u, v, h, hk, _⟩
      obtain ⟨rfl, h1⟩ := List.append_eq_nil_iff.mp h.symm
      obtain ⟨rfl, _⟩ := List.append_eq_nil_iff.mp h1
      subst hk
      rfl
  | cons c s ih =>
    rw [findC]
    by_cases hp : p.isPrefixOf (c :: s) = true
    · obtain ⟨w, hw⟩ := List.isPrefixOf_iff_prefix.mp hp
      rw [if_pos hp]
      constructor
      · intro h
        injection h with h
        exact ⟨[], w, hw.symm, h, fun _ _ _ => by omega⟩
      · rintro ⟨u, v, _, _, hmin⟩
        have := hmin [] w hw.symm
        simp only [List.length_nil] at this
        rw [show k = 0 by omega]
    · rw [if_neg hp]
      have hcons : ∀ {u v : Str}, c :: s = u ++ (p ++ v) → ∃ u', u = c :: u' ∧ s = u' ++ (p ++ v) := by
        intro u v h
        cases u with
        | nil => exact absurd (List.isPrefixOf_iff_prefix.mpr ⟨v, h.symm⟩) hp
        | cons d u =>
          simp only [List.cons_append, List.cons.injEq] at h
          exact ⟨u, by rw [h.1], h.2⟩
      rw [Option.map_eq_some_iff]
      constructor
      · rintro ⟨j, hj, rfl⟩
        obtain ⟨u, v, rfl, rfl, hmin⟩ := ih.mp hj
        refine ⟨c :: u, v, rfl, rfl, fun u' v' h => ?_⟩
        obtain ⟨u'', rfl, h1⟩ := hcons h
        have := hmin u'' v' h1
        simp only [List.length_cons]; omega
      · rintro ⟨u, v, h, rfl, hmin⟩
        obtain ⟨u', rfl, h1⟩ := hcons h
        refine ⟨u'.length, ih.mpr ⟨u', v, h1, rfl, fun u'' v'' h' => ?_⟩, rfl⟩
        have := hmin (c :: u'') v'' (by rw [h']; rfl)
        simp only [List.length_cons] at this; omega

theorem findC_char (c : Char) (s : Str) : findC [c] s = if c ∈ s then some (s.takeWhile (· ≠ c)).length else none := by
  induction s with
  | nil => rfl
  | cons d s ih =>
    rw [findC, ih]
    by_cases h : c = d
    · subst h; simp [List.isPrefixOf]
    · have h' : (c == d) = false := by simpa using h
      have h'' : ¬ d = c := fun e => h e.symm
      simp only [List.isPrefixOf, h', Bool.false_and, Bool.false_eq_true, if_false, List.mem_cons, h, false_or]
      split <;> simp [h'']

/-! ## The parser -/

/-- All ranges in the arena are ranges of this text. -/
def AllInput (input : Str) (t : TravTree) : Prop := ∀ (k : Nat) (tr : Traversal), t.arena[k]? = some tr → tr.range.input = input

theorem nextB_eq {input : Str} {r : InputRange} (h : r.input = input) : r.nextB (bytes input) = bytes r.next := by
  unfold InputRange.nextB InputRange.next
  rw [getFromB_eq, h]
  cases getFrom input (r.start + r.len) <;> rfl

theorem advanceByB_eq {input : Str} {r : InputRange} (h : r.input = input) (n : Nat) : r.advanceByB (bytes input) n = r.advanceBy n := by
  unfold InputRange.advanceByB InputRange.advanceBy
  rw [bytes_length, h, ← h]

theorem isCompleteB_eq {input : Str} {r : InputRange} (h : r.input = input) : r.isCompleteB (bytes input) = r.isComplete := by
  unfold InputRange.isCompleteB InputRange.isComplete
  rw [bytes_length, h]

theorem advanceBy_input {r r' : InputRange} {n : Nat} (h : r.advanceBy n = some r') : r'.input = r.input := by
  unfold InputRange.advanceBy at h
  split at h
  · cases h
  · injection h with h; rw [← h]

theorem AllInput.push {input : Str} {t : TravTree} (h : AllInput input t) {tr : Traversal} (htr : tr.range.input = input) {roots edges} :
    AllInput input ⟨t.arena ++ [tr], roots, edges⟩ := by
  intro k x hx
  simp only [List.getElem?_append] at hx
  split at hx
  · exact h k x hx
  · rw [List.getElem?_singleton] at hx
    split at hx
    · injection hx with hx; rw [← hx]; exact htr
    · cases hx

theorem matchTermB_eq {input : Str} {t : TravTree} (h : AllInput input t) (k : Nat) (m : TermMatch) :
    t.matchTermB (bytes input) k m = t.matchTerm k m ∧ ∀ id t', t.matchTerm k m = some (id, t') → AllInput input t' := by
  unfold TravTree.matchTermB TravTree.matchTerm
  cases hk : t.get k with
  | none => exact ⟨rfl, fun _ _ h => by cases h⟩
  | some tp =>
    have hi := h k tp hk
    have he : t.matchRangeB (bytes input) tp m = t.matchRange tp m := by
      unfold TravTree.matchRangeB TravTree.matchRange
      cases m with
      | terminal s => simp only [bytes_length]; exact advanceByB_eq hi _
      | nonterminal c =>
        simp only
        cases t.get c with
        | none => rfl
        | some tc => exact advanceByB_eq hi _
    simp only [he]
    refine ⟨rfl, fun id t' ht => ?_⟩
    cases hr : t.matchRange tp m with
    | none => rw [hr] at ht; cases ht
    | some range =>
      rw [hr] at ht
      simp only at ht
      have hri : range.input = input := by
        rw [← hi]
        unfold TravTree.matchRange at hr
        cases m with
        | terminal s => exact advanceBy_input hr
        | nonterminal c =>
          cases hc : t.get c with
          | none => simp only [hc] at hr; cases hr
          | some tc => simp only [hc] at hr; exact advanceBy_input hr
      cases hu : tp.unmatched with
      | nil => rw [hu] at ht; cases ht
      | cons u us =>
        rw [hu] at ht
        simp only at ht
        cases hed : t.edges.get ⟨m, tp.id⟩ with
        | some j => rw [hed] at ht; simp only [Option.some.injEq, Prod.mk.injEq] at ht; rw [← ht.2]; exact h
        | none =>
          rw [hed] at ht
          simp only [Option.some.injEq, Prod.mk.injEq] at ht
          rw [← ht.2]
          exact h.push hri

theorem matchAllB_eq {input : Str} (ms : List (Nat × TermMatch)) {t : TravTree} (h : AllInput input t) (q : TravQueue) :
    matchAllB (bytes input) ms t q = matchAll ms t q ∧ ∀ t' q', matchAll ms t q = some (t', q') → AllInput input t' := by
  induction ms generalizing t q with
  | nil =>
    refine ⟨rfl, fun t' q' e => ?_⟩
    simp only [matchAll, Option.some.injEq, Prod.mk.injEq] at e
    rw [← e.1]; exact h
  | cons x xs ih =>
    obtain ⟨e, hk⟩ := matchTermB_eq h x.1 x.2
    simp only [matchAllB, matchAll, e]
    cases hm : t.matchTerm x.1 x.2 with
    | none => exact ⟨rfl, fun _ _ h => by cases h⟩
    | some r => exact ih (hk r.1 r.2 hm) _

theorem predictAll_input {input : Str} {range : InputRange} (hr : range.input = input) (b : Bool) (ps : List FlatProd) {t : TravTree}
    (h : AllInput input t) (q : TravQueue) : AllInput input (predictAll range b ps t q).1 := by
  induction ps generalizing t q with
  | nil => exact h
  | cons p ps ih =>
    simp only [predictAll]
    refine ih ?_ _
    unfold TravTree.predict
    simp only
    split
    · exact h
    · exact h.push hr

/-- A round on bytes is the round on characters. -/
theorem roundB_eq {input : Str} {pg : ParseGrammar} {st : PState} (h : AllInput input st.tree) (id : Nat) :
    earleyRoundB (bytes input) pg st id = earleyRound pg st id ∧ ∀ st' b, earleyRound pg st id = some (st', b) → AllInput input st'.tree := by
  unfold earleyRoundB earleyRound
  cases hid : st.tree.get id with
  | none => exact ⟨rfl, fun _ _ h => by cases h⟩
  | some tr =>
    have hi := h id tr hid
    simp only
    cases hu : tr.nextUnmatched with
    | none =>
      simp only [isCompleteB_eq hi]
      cases pg.prodById tr.prodId with
      | none => exact ⟨rfl, fun _ _ h => by cases h⟩
      | some prod =>
        obtain ⟨e, hk⟩ := matchAllB_eq (((st.completions.insert tr prod.lhs).getIncomplete prod.lhs tr).map fun i => (i, TermMatch.nonterminal id)) h st.queue
        simp only [e]
        refine ⟨rfl, fun st' b hs => ?_⟩
        cases hm : matchAll (((st.completions.insert tr prod.lhs).getIncomplete prod.lhs tr).map fun i => (i, TermMatch.nonterminal id)) st.tree st.queue with
        | none => rw [hm] at hs; cases hs
        | some r =>
          rw [hm] at hs
          simp only [Option.some.injEq, Prod.mk.injEq] at hs
          rw [← hs.1]
          exact hk _ _ hm
    | some T =>
      cases T with
      | terminal s =>
        simp only [nextB_eq hi, startsWithB_eq]
        obtain ⟨e, hk⟩ := matchAllB_eq [(id, TermMatch.terminal s)] h st.queue
        simp only [e]
        refine ⟨rfl, fun st' b hs => ?_⟩
        split at hs
        · cases hm : matchAll [(id, TermMatch.terminal s)] st.tree st.queue with
          | none => rw [hm] at hs; cases hs
          | some r =>
            rw [hm] at hs
            simp only [Option.some.injEq, Prod.mk.injEq] at hs
            rw [← hs.1]
            exact hk _ _ hm
        · simp only [Option.some.injEq, Prod.mk.injEq] at hs
          rw [← hs.1]; exact h
      | nonterminal n =>
        simp only
        cases pg.prodById tr.prodId with
        | none => exact ⟨rfl, fun _ _ h => by cases h⟩
        | some prod =>
          simp only
          cases pg.prodsFor (.nonterminal n) with
          | none => exact ⟨rfl, fun _ _ h => by cases h⟩
          | some prods =>
            have hp := predictAll_input hi false prods h st.queue
            obtain ⟨e, hk⟩ := matchAllB_eq (((st.completions.insert tr prod.lhs).getComplete (.nonterminal n) tr.range).map
              fun c => (id, TermMatch.nonterminal c)) hp (predictAll tr.range false prods st.tree st.queue).2
            simp only [e]
            refine ⟨rfl, fun st' b hs => ?_⟩
            split at hs
            · cases hs
            · rename_i hm
              simp only [Option.some.injEq, Prod.mk.injEq] at hs
              rw [← hs.1]
              exact hk _ _ hm

theorem earleyB_eq {input : Str} {pg : ParseGrammar} (fuel : Nat) {st : PState} (h : AllInput input st.tree) :
    earleyB (bytes input) pg fuel st = earley pg fuel st := by
  induction fuel generalizing st with
  | zero => rfl
  | succ n ih =>
    unfold earleyB earley
    cases hq : st.queue.queue with
    | nil => rfl
    | cons id rest =>
      obtain ⟨e, hk⟩ := roundB_eq (pg := pg) (st := { st with queue := { st.queue with queue := rest } }) h id
      simp only [e]
      cases hr : earleyRound pg { st with queue := { st.queue with queue := rest } } id with
      | none => rfl
      | some r =>
        obtain ⟨st', b⟩ := r
        cases b with
        | true => rfl
        | false => exact ih (hk st' false hr)

/-! ## Sorted vectors -/

theorem insertFound_eq {v : List Nat} (hv : v.Pairwise (· < ·)) {x : Nat} {r : Except Nat Nat} (h : BinarySearch v x r) :
    insertFound v x r = sortedVecInsert v x := by
  cases h with
  | @found i h =>
    simp only [insertFound]
    induction v generalizing i with
    | nil => simp at h
    | cons y v ih =>
      rw [sortedVecInsert]
      split
      · rfl
      · rename_i hne
        cases i with
        | zero => simp at h; exact absurd h hne
        | succ i =>
          rw [List.getElem?_cons_succ] at h
          have hlt := List.rel_of_pairwise_cons hv (List.mem_of_getElem? h)
          rw [if_neg (by omega), ← ih (List.Pairwise.of_cons hv) h]
  | @missing i hi h1 h2 =>
    simp only [insertFound]
    induction v generalizing i with
    | nil => simp [sortedVecInsert]
    | cons y v ih =>
      cases i with
      | zero =>
        have := h2 y (by simp)
        rw [sortedVecInsert, if_neg (by omega), if_pos this]
        rfl
      | succ i =>
        have := h1 y (by simp)
        rw [sortedVecInsert, if_neg (by omega), if_neg (by omega), List.take_succ_cons, List.drop_succ_cons, List.cons_append,
          ih (List.Pairwise.of_cons hv) (by simpa using hi) (fun z hz => h1 z (by simp [hz])) (fun z hz => h2 z (by simpa using hz))]

end Bnf
