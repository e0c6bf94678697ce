import Verif.Model.ErrorText

set_option autoImplicit false

/-! # Specification: messages the library composes itself -/

namespace Ebnf.Spec

/-- What stands ahead in a text, as a parse error quotes it: at most eight characters, and exactly eight if the text goes on. -/
def Quotable : Actual → Prop
  | .eof => True
  | .text s more => if more then s.length = 8 else s.length ≤ 8

/-- Messages whose text does not depend on anything unknown: not those that pass on a text of the operating system, the regular expression
library or the application, nor the one about a mark that is not known. -/
def Composed : Msg → Prop
  | .ioError _ | .streamError _ | .wrapped _ _ | .notOpened _ | .malformedRegex _ | .custom _ | .invalidMark _ => False
  | .expected _ actual => Quotable actual
  | _ => True

/-- The place in the grammar that a message mentions besides its own, if any, is in the source `name`. -/
def MentionsOnly (name : Str) : Msg → Prop
  | .forwardUndefined _ _ definition => definition.name = name
  | _ => True

end Ebnf.Spec
