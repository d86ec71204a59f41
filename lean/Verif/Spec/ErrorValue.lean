import Verif.Model.ErrorValue
import Verif.Model.Generate
import Verif.Model.ParseGrammar
import Verif.Model.Features
import Verif.Spec.DebugText

/-!
# The errors that functions of the crate return
-/

set_option autoImplicit false

namespace Bnf.Spec
open Bnf

/-- `e` is the error of some call of a function of the crate: one of those that read a text (whole grammars in a given format, with or without
recognition of the format; terms; expressions; productions), one of those that check a grammar, or one that generates a sentence, with any strategy,
callback and state.  `dbg` is `Debug` of `str`. -/
inductive Returned (dbg : Str → Str) : FullError → Prop
  | grammar {F s m} : E.parseFrom dbg F s = some (.error m) → Returned dbg (.parseError m)
  | detected {f s m} : E.fromStr dbg f s = some (.error m) → Returned dbg (.parseError m)
  | bnfOnly {s m} : E.fromStrBnfOnly dbg s = some (.error m) → Returned dbg (.parseError m)
  | term {s m} : E.termFromStr dbg s = some (.error m) → Returned dbg (.parseError m)
  | expression {s m} : E.expressionFromStr dbg s = some (.error m) → Returned dbg (.parseError m)
  | production {s m} : E.productionFromStr dbg s = some (.error m) → Returned dbg (.parseError m)
  | validated {ord m} {g : Grammar} : g.validate ord = .error (.validationError m) → Returned dbg (.validationError m)
  | built {ord m} {g : Grammar} : g.buildParser ord = .error (.validationError m) → Returned dbg (.validationError m)
  | generated {σ : Type} {S : Strategy σ} {f fuel st st' m} {g : Grammar} :
      g.generateWith S f fuel st = .done (.error (.generateError m)) st' → Returned dbg (.generateError m)

/-- The `Debug` text of an error: the name of the variant and the quoted text. -/
def debugError (plain : Char → Bool) : FullError → Str
  | .parseError s => chars! "ParseError(" ++ quotedDebug plain s ++ chars! ")"
  | .generateError s => chars! "GenerateError(" ++ quotedDebug plain s ++ chars! ")"
  | .validationError s => chars! "ValidationError(" ++ quotedDebug plain s ++ chars! ")"

/-- The same on three lines. -/
def prettyError (plain : Char → Bool) : FullError → Str
  | .parseError s => chars! "ParseError(\n    " ++ quotedDebug plain s ++ chars! ",\n)"
  | .generateError s => chars! "GenerateError(\n    " ++ quotedDebug plain s ++ chars! ",\n)"
  | .validationError s => chars! "ValidationError(\n    " ++ quotedDebug plain s ++ chars! ",\n)"

end Bnf.Spec
