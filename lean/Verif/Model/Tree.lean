import Verif.Model.Basic

/-! # `AST`, and `Display` of locations and errors — src/lib.rs -/

namespace Ebnf

/-- `Display for Location` — src/lib.rs:364-368: `write!(f, "{}({},{})", name, lines, columns)`. -/
def Location.display (l : Location) : Str :=
  l.name ++ '(' :: Nat.toDigits 10 l.lines ++ ',' :: Nat.toDigits 10 l.columns ++ [')']

/-- `Display for Error` — src/lib.rs:168-172: `write!(f, "{} {}", location, message)`.  The message is the text
in the field `message` (the model keeps its data structured in `Msg`). -/
def displayError (location : Location) (message : Str) : Str := location.display ++ ' ' :: message

mutual
/-- `struct AST` — src/lib.rs:370-375. -/
inductive AST
  | mk (location : Location) (name : Option Str) (node : Node)
/-- `enum Node` — src/lib.rs:438-442. -/
inductive Node
  | atom (token : Str)
  | complex (children : Children)
/-- The `Vec<AST>` of `Node::Complex` — src/lib.rs:441. -/
inductive Children
  | nil
  | cons (head : AST) (tail : Children)
end

/-- A `Vec<AST>` from its elements. -/
def Children.ofList : List AST → Children
  | [] => .nil
  | a :: as => .cons a (Children.ofList as)

namespace AST

/-- `AST::is_leaf` — src/lib.rs:378-383. -/
def isLeaf : AST → Bool
  | .mk _ _ (.atom _) => true
  | .mk _ _ (.complex _) => false

/-- `AST::is_node` — src/lib.rs:384-386. -/
def isNode (a : AST) : Bool := !a.isLeaf

/-- `AST::location` — src/lib.rs:387-389. -/
def location : AST → Location
  | .mk l _ _ => l

/-- `AST::name` — src/lib.rs:390-395. -/
def name : AST → Option Str
  | .mk _ n _ => n

mutual
/-- `AST::token` — src/lib.rs:396-407. -/
def token : AST → Str
  | .mk _ _ (.atom t) => t
  | .mk _ _ (.complex cs) => tokens [] cs
/-- The `for` loop of `AST::token` — src/lib.rs:400-403. -/
def tokens (buffer : Str) : Children → Str
  | .nil => buffer
  | .cons a as => tokens (buffer ++ token a) as
end

/-- `AST::with_token` — src/lib.rs:411-419. -/
def withToken (location : Location) (token : Str) : AST := .mk location none (.atom token)

/-- `AST::with_name` — src/lib.rs:420-428. -/
def withName (location : Location) (name token : Str) : AST := .mk location (some name) (.atom token)

/-- `AST::with_children` — src/lib.rs:429-435. -/
def withChildren (location : Location) (children : List AST) : AST :=
  .mk location none (.complex (.ofList children))

end AST

end Ebnf
