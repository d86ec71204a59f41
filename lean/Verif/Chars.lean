/-! # Notation for lists of characters -/

/-- `chars! "…"` is the list of the characters, written out (which the kernel computes with more quickly than with `"…".toList`). -/
macro "chars!" s:str : term => do
  let cs := s.getString.toList.map fun c => Lean.Syntax.mkCharLit c
  `([$(cs.toArray),*])
