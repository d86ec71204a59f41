import Verif.Model.Views
import Verif.Model.Nom

/-!
# The same functions on bytes

Elsewhere a `str` is the list of its characters.  In Rust it is the UTF-8 encoding of them, and `len`, `get`, `starts_with`, `find` and `==` work on these
bytes.  Here are those functions of the standard library on bytes, and once more the functions of the parser that look at a text, reading bytes only.
That they do the same is C133.
-/

set_option autoImplicit false

namespace Bnf

/-! ## The standard library -/

/-- `u8::is_utf8_char_boundary`: `(self as i8) >= -0x40`, that is, not one of `0x80` … `0xbf`. -/
def startsChar (b : UInt8) : Bool := b.toNat < 0x80 || 0xc0 ≤ b.toNat

/-- `str::is_char_boundary`: the start, the end, and every byte that begins a character. -/
def isCharBoundary (text : List UInt8) (i : Nat) : Bool :=
  i == 0 || match text[i]? with
    | none => i == text.length
    | some b => startsChar b

/-- `str::get(i..)`. -/
def getFromB (text : List UInt8) (i : Nat) : Option (List UInt8) :=
  if isCharBoundary text i then some (text.drop i) else none

/-- `str::get(..i)`. -/
def getToB (text : List UInt8) (i : Nat) : Option (List UInt8) :=
  if isCharBoundary text i then some (text.take i) else none

/-- `str::starts_with(&str)` compares bytes. -/
def startsWithB (text pattern : List UInt8) : Bool := pattern.isPrefixOf text

/-- `str::find(&str)`: the first offset at which the bytes of the pattern are found. -/
def findB (pattern : List UInt8) : List UInt8 → Option Nat
  | [] => if pattern.isPrefixOf [] then some 0 else none
  | b :: text => if pattern.isPrefixOf (b :: text) then some 0 else (findB pattern text).map (· + 1)

/-- `core::str::validations::next_code_point`, which `str::chars` and `char_indices` call: the number of the next character and the rest.  Shifts and masks
are written as arithmetic; the parts that the code combines with `|` have no bits in common. -/
def nextCodePoint : List UInt8 → Option (Nat × List UInt8)
  | [] => none
  | x :: text =>
    let x := x.toNat
    if x < 0x80 then some (x, text)
    else
      let init := x % 32
      match text with
      | [] => none
      | y :: text =>
        let y := y.toNat % 64
        if x < 0xe0 then some (init * 64 + y, text)
        else
          match text with
          | [] => none
          | z :: text =>
            let yz := y * 64 + z.toNat % 64
            if x < 0xf0 then some (init * 4096 + yz, text)
            else
              match text with
              | [] => none
              | w :: text => some (init % 8 * 262144 + yz * 64 + w.toNat % 64, text)

/-- What `slice::binary_search` may return for `x` according to its documentation, on a sorted slice: an index at which `x` is, or, if there is none, the
index at which it has to be inserted to keep the slice sorted. -/
inductive BinarySearch (v : List Nat) (x : Nat) : Except Nat Nat → Prop
  | found {i} : v[i]? = some x → BinarySearch v x (.ok i)
  | missing {i} : i ≤ v.length → (∀ y ∈ v.take i, y < x) → (∀ y ∈ v.drop i, x < y) → BinarySearch v x (.error i)

/-- `src/earley/mod.rs` 261-267: `sorted_vec_insert`, given what `binary_search` returned; `Vec::insert(i, id)` moves the elements from `i` on. -/
def insertFound (v : List Nat) (id : Nat) : Except Nat Nat → List Nat
  | .ok _ => v
  | .error i => v.take i ++ id :: v.drop i

/-! ## The parser

A range keeps a reference to the whole text; here the text is given to each function as bytes, and the field `input` of the ranges is never read. -/

namespace InputRange

/-- `src/earley/input_range.rs` 29-32: `next`. -/
def nextB (text : List UInt8) (r : InputRange) : List UInt8 := (getFromB text (r.start + r.len)).getD []

/-- `src/earley/input_range.rs` 43-51: `advance_by`. -/
def advanceByB (text : List UInt8) (r : InputRange) (step : Nat) : Option InputRange :=
  if text.length < r.start then none
  else some { r with len := min (r.len + step) (text.length - r.start) }

/-- `src/earley/input_range.rs` 52-54: `is_complete`. -/
def isCompleteB (text : List UInt8) (r : InputRange) : Bool := r.start == 0 && r.len == text.length

end InputRange

namespace TravTree

/-- `src/earley/traversal.rs` 186-198: the range of the extended traversal. -/
def matchRangeB (text : List UInt8) (t : TravTree) (parent : Traversal) : TermMatch → Option InputRange
  | .terminal s => parent.range.advanceByB text (bytes s).length
  | .nonterminal c =>
    match t.get c with
    | none => none
    | some tc => parent.range.advanceByB text tc.range.len

/-- `src/earley/traversal.rs` 183-220: `match_term`. -/
def matchTermB (text : List UInt8) (t : TravTree) (parentId : Nat) (m : TermMatch) : Option (Nat × TravTree) :=
  match t.get parentId with
  | none => none
  | some parent =>
    match t.matchRangeB text parent m with
    | none => none
    | some range =>
      match parent.unmatched with
      | [] => none
      | _ :: unmatched =>
        let src : Edge := ⟨m, parent.id⟩
        match t.edges.get src with
        | some id => some (id, t)
        | none =>
          let id := t.arena.length
          some (id, { t with
            arena := t.arena ++ [⟨id, unmatched, range, parent.prodId, parent.isStarting, some src⟩]
            edges := t.edges.set src id })

end TravTree

/-- `src/earley/mod.rs` 139-144, 150-152 and 164-170: the loops matching terms. -/
def matchAllB (text : List UInt8) : List (Nat × TermMatch) → TravTree → TravQueue → Option (TravTree × TravQueue)
  | [], t, q => some (t, q)
  | (parent, m) :: rest, t, q =>
    match t.matchTermB text parent m with
    | none => none
    | some (id, t') => matchAllB text rest t' (q.pushBack id)

/-- `src/earley/mod.rs` 115-177: one round; predicting and the index of completions do not look at the text. -/
def earleyRoundB (text : List UInt8) (pg : ParseGrammar) (st : PState) (id : Nat) : Option (PState × Bool) :=
  match st.tree.get id with
  | none => none
  | some tr =>
    match tr.nextUnmatched with
    | some (.nonterminal n) =>
      match pg.prodById tr.prodId with
      | none => none
      | some prod =>
        let completions := st.completions.insert tr prod.lhs
        match pg.prodsFor (.nonterminal n) with
        | none => none
        | some prods =>
          let r := predictAll tr.range false prods st.tree st.queue
          match matchAllB text ((completions.getComplete (.nonterminal n) tr.range).map
              fun c => (id, TermMatch.nonterminal c)) r.1 r.2 with
          | none => none
          | some (tree, queue) => some (⟨tree, queue, completions⟩, false)
    | some (.terminal s) =>
      if startsWithB (tr.range.nextB text) (bytes s) then
        match matchAllB text [(id, TermMatch.terminal s)] st.tree st.queue with
        | none => none
        | some (tree, queue) => some (⟨tree, queue, st.completions⟩, false)
      else some (st, false)
    | none =>
      let isFull := tr.isStarting && tr.range.isCompleteB text
      match pg.prodById tr.prodId with
      | none => none
      | some prod =>
        let completions := st.completions.insert tr prod.lhs
        match matchAllB text ((completions.getIncomplete prod.lhs tr).map
            fun i => (i, TermMatch.nonterminal id)) st.tree st.queue with
        | none => none
        | some (tree, queue) => some (⟨tree, queue, completions⟩, isFull)

/-- `src/earley/mod.rs` 108-180: `earley`. -/
def earleyB (text : List UInt8) (pg : ParseGrammar) : Nat → PState → Outcome (Option Nat × PState)
  | 0, _ => .outOfFuel
  | fuel + 1, st =>
    match st.queue.queue with
    | [] => .returned (none, st)
    | id :: rest =>
      match earleyRoundB text pg { st with queue := { st.queue with queue := rest } } id with
      | none => .panic
      | some (st', true) => .returned (some id, st')
      | some (st', false) => earleyB text pg fuel st'

/-- `src/earley/mod.rs` 220-238: `ParseTreeIter::next`; opening an iterator (190-218) and reading a tree (84-104) do not look at the text. -/
def ParseTreeIter.nextB (text : List UInt8) (fuel : Nat) (it : ParseTreeIter) : Outcome (Option ParseTree × ParseTreeIter) :=
  match earleyB text it.parser.parseGrammar fuel it.st with
  | .outOfFuel => .outOfFuel
  | .panic => .panic
  | .returned (none, st) => .returned (none, { it with st := st })
  | .returned (some id, st) =>
    match parseTree st.tree it.parser.parseGrammar (st.tree.arena.length + 1) id with
    | none => .panic
    | some t => .returned (some t, { it with st := st })

/-! ## The text parser -/

/-- What a parser of `nom` returns for a text of bytes: the rest and what was taken, or an error. -/
abbrev ByteRes := Option (List UInt8 × List UInt8)

/-- `nom::bytes::complete::tag`: the text begins with the bytes of the tag; it is split after them. -/
def tagB (t text : List UInt8) : ByteRes := if startsWithB text t then some (text.drop t.length, text.take t.length) else none

/-- `nom::bytes::complete::take_until`: the text is split where the bytes of the pattern are found first. -/
def takeUntilB (pattern text : List UInt8) : ByteRes := (findB pattern text).map fun i => (text.drop i, text.take i)

end Bnf
