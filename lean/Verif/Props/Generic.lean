import Verif.Proofs.Generic
import Verif.Chars

/-!
# C134: the generic helpers of the crate, for everything they can be used with
-/

set_option autoImplicit false

namespace Bnf.Props

open Bnf.Generic Bnf.Spec.Generic

section List

variable {σ ι ε α δ : Type} {parser : Parser σ ι ε α} {delimiter : Parser σ ι ε δ}

/-- C134: what `xt_list_with_separator` returns, for any two parsers: the items up to the first one that no separator follows, or the error of the first
item that cannot be read (after a separator there must be an item; nothing is given back), or the first failure that is not `Err::Error` of a separator. -/
theorem C134_list (a : σ × ι) (r : Outcome ι ε (List α)) (s : σ) :
    (∃ n, listWithSeparator parser delimiter n a.1 a.2 = some (r, s)) ↔ Ends parser delimiter a r s :=
  ⟨fun ⟨_, h⟩ => list_sound h, list_complete⟩

/-- C134: the number of rounds allowed does not matter, once it suffices. -/
theorem C134_rounds {n m : Nat} (h : n ≤ m) {a : σ × ι} {r} (hr : listWithSeparator parser delimiter n a.1 a.2 = some r) :
    listWithSeparator parser delimiter m a.1 a.2 = some r := listLoop_mono hr m h

/-- C134: it does not return exactly if there is an endless sequence of items and separators. -/
theorem C134_unending (a : σ × ι) : (∀ n, listWithSeparator parser delimiter n a.1 a.2 = none) ↔
    ∃ f : Nat → σ × ι, f 0 = a ∧ ∀ k, ∃ o, Pair parser delimiter (f k) o (f (k + 1)) := by
  constructor
  · exact unending
  · rintro ⟨f, rfl, hf⟩ n
    exact unending_none hf n 0 []

/-- C134: it returns if every item with its separator makes something smaller, as when they take away a character of the text; and then it takes no more
rounds than that. -/
theorem C134_progress (μ : σ × ι → Nat) (hμ : ∀ a o b, Pair parser delimiter a o b → μ b < μ a) (a : σ × ι) :
    ∃ r, listWithSeparator parser delimiter (μ a + 1) a.1 a.2 = some r := list_measure μ hμ _ a [] (by omega)

/-- C134: unlike `nom::multi::many1` there is no check for progress: with parsers that succeed without taking anything it never returns. -/
theorem C134_no_check (a : σ × ι) (o : α) (h : Pair parser delimiter a o a) (n : Nat) :
    listWithSeparator parser delimiter n a.1 a.2 = none :=
  (C134_unending a).mpr ⟨fun _ => a, rfl, fun _ => ⟨o, h⟩⟩ n

/-- C134: the lists of the text parser as modelled for C69 are these, for any parsers that have neither state nor errors other than `Err::Error`. -/
theorem C134_text {p : E.P α} {d : E.P δ} (hp : ∀ s, p s ≠ .fuel) (hd : ∀ s, d s ≠ .fuel) (n : Nat) (s : Str) :
    toErr (listWithSeparator (ofErr p hp) (ofErr d hd) n () s) = some (E.xtList n p d s) := xtLoop_eq hp hd n s []

end List

section Samples

/-- `tag(t)` as a parser that counts how often it is called. -/
def countedTag (t : Str) : Parser Nat Str Str Str := fun n s =>
  (if t.isPrefixOf s then .ok (s.drop t.length) t else .error s, n + 1)

/-- The parser `failing_parser` of the tests. -/
def failing : Parser Nat Str Str Str := fun n s => (.failure s, n + 1)

-- The four tests of `src/parsers/nom_xt.rs` (54-98).
example : listWithSeparator (countedTag (chars! "test")) (countedTag [',']) 9 0 (chars! "test,test,test") =
    some (.ok [] [chars! "test", chars! "test", chars! "test"], 6) := by rfl
example : listWithSeparator (countedTag (chars! "test")) (countedTag [',']) 9 0 (chars! "test") = some (.ok [] [chars! "test"], 2) := by rfl
example : listWithSeparator failing (countedTag [',']) 9 0 (chars! "test") = some (.failure (chars! "test"), 1) := by rfl
example : listWithSeparator (countedTag (chars! "test")) failing 9 0 (chars! "test,") = some (.failure [','], 2) := by rfl

-- A separator must be followed by an item; and what makes the progress required.
example : listWithSeparator (countedTag (chars! "test")) (countedTag [',']) 9 0 (chars! "test,tes") = some (.error (chars! "tes"), 3) := by rfl
example : Ends (countedTag ['a']) (countedTag [',']) (0, chars! "a,a.") (.ok ['.'] [['a'], ['a']]) 4 :=
  (C134_list _ _ _).mp ⟨9, by rfl⟩

theorem countedTag_ok {t s j o : Str} {n m : Nat} (h : countedTag t n s = (.ok j o, m)) : s = t ++ j := by
  unfold countedTag at h
  split at h
  · rename_i hp
    obtain ⟨r, rfl⟩ := List.isPrefixOf_iff_prefix.mp hp
    simp only [List.drop_left', Prod.mk.injEq, Outcome.ok.injEq] at h
    rw [← h.1.1]
  · cases h

example (s : Str) : ∃ r, listWithSeparator (countedTag ['a']) (countedTag [',']) (s.length + 1) 0 s = some r := by
  refine C134_progress (fun a : Nat × Str => a.2.length) ?_ (0, s)
  rintro ⟨n, x⟩ o ⟨m, y⟩ ⟨k, j, d, h1, h2⟩
  have e1 := countedTag_ok h1
  have e2 := countedTag_ok h2
  simp only at e1 e2 ⊢
  rw [e1, e2]; simp; omega

/-- An empty item and an empty separator: the loop does not end. -/
example (n : Nat) : listWithSeparator (fun (_ : Unit) (s : Str) => (Outcome.ok (ε := Str) s 'x', ())) (fun _ s => (Outcome.ok s ' ', ())) n () ['a'] = none :=
  C134_no_check ((), ['a']) 'x' ⟨(), ['a'], ' ', rfl, rfl⟩ n

end Samples

section Vec

variable {α : Type}

open AppendOnlyVec

/-- C134: after any calls, an id that was in use before still gives its item; the ids after them give, one by one, the items added by the calls, an item made
by `push_with_id` from its own id; and no other id gives anything. -/
theorem C134_vec (v : AppendOnlyVec α) (cs : List (Call α)) (id : Nat) :
    (v.calls cs).2.get id = if id < v.len then v.get id else (cs[id - v.len]?).map (added id) := calls_get v cs id

/-- C134: the `k`-th call returns the id at which its item is found ever after, or that item; in particular `expect` never panics and no id is used twice. -/
theorem C134_vec_returned (v : AppendOnlyVec α) (cs : List (Call α)) (k : Nat) :
    (v.calls cs).1[k]? = (cs[k]?).map fun
      | .push _ => .id (v.len + k)
      | .pushWithId b => .item (some (b (v.len + k))) := calls_returned v cs k

/-- C134: and that item is what `get` returns, however many calls follow. -/
theorem C134_vec_stable (v : AppendOnlyVec α) (before after : List (Call α)) (c : Call α) :
    (v.calls (before ++ c :: after)).2.get (v.len + before.length) = some (added (v.len + before.length) c) ∧
      (v.calls (before ++ c :: after)).2.len = v.len + (before ++ c :: after).length := by
  refine ⟨?_, calls_length v _⟩
  rw [C134_vec, if_neg (by omega)]
  simp

example : (AppendOnlyVec.new.calls [.push 7, .pushWithId (· * 10), .pushWithId (· + 5)]).2.vec = [7, 10, 7] := by rfl
example : ((⟨['a']⟩ : AppendOnlyVec Char).calls [.push 'b', .push 'c']).2.get 0 = some 'a' := by rfl

end Vec

end Bnf.Props
