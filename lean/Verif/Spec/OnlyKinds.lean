import Verif.Model.Lexer
import Verif.Model.Slr

/-!
# Answers with tokens of the same kinds
-/

namespace Pango.Spec

open Pango.Lex Pango.Parse

variable {T : Type}

/-- The kinds of the tokens that calls have returned. -/
def kindsOf (as : List (Option (Tok T))) : List (Option T) := as.map (Option.map Tok.kind)

/-- No token both times, or two tokens of the same kind, whatever their sources and places are. -/
inductive SameKind [TerminalEq T] : Option (Tok T) → Option (Tok T) → Prop
  | none : SameKind none none
  | some {t u : Tok T} : teq t.kind u.kind = true → SameKind (some t) (some u)

end Pango.Spec
