import Verif.Spec.Lines
import Verif.Model.Ast
/-
Specification of expressions: an expression is a sequence of characters, variable references and function calls.
How text is cut into constants and concatenations by the parser does not matter.
-/
namespace Hastur

/-- One item of an expression. -/
inductive Expr where
  /-- a character that stands for itself -/
  | char (x : LChar)
  /-- a reference; the name is itself an expression -/
  | ref (loc : Location) (name : List Expr)
  | eval (loc : Location) (arg : List Expr)
  | strip (loc : Location) (arg : List Expr)
  | word (loc : Location) (index words : List Expr)
  | words (loc : Location) (arg : List Expr)

/-- Text as an expression. -/
def Expr.text (t : List LChar) : List Expr := t.map .char

mutual
/-- The expression a syntax tree (src/ast/mod.rs lines 194-230) stands for. -/
def Ast.flat : Ast → List Expr
  | .empty _ => []
  | .constant _ s => Expr.text s.ltext
  | .preEvaluated _ b => Expr.text (Block.ltext b)
  | .concat _ cs => Ast.flatList cs
  | .varRef l n => [.ref l (Ast.flat n)]
  | .eval l a => [.eval l (Ast.flat a)]
  | .strip l a => [.strip l (Ast.flat a)]
  | .word l i w => [.word l (Ast.flat i) (Ast.flat w)]
  | .words l a => [.words l (Ast.flat a)]
/-- The expression a sequence of syntax trees stands for. -/
def Ast.flatList : List Ast → List Expr
  | [] => []
  | a :: as => Ast.flat a ++ Ast.flatList as
end

mutual
/-- All the text in a syntax tree is ASCII and its evaluated blocks are well-formed. -/
def Ast.WF : Ast → Prop
  | .empty _ => True
  | .constant _ s => AsciiS s.contents
  | .preEvaluated _ b => Block.WF b
  | .concat _ cs => Ast.WFList cs
  | .varRef _ n => Ast.WF n
  | .eval _ a => Ast.WF a
  | .strip _ a => Ast.WF a
  | .word _ i w => Ast.WF i ∧ Ast.WF w
  | .words _ a => Ast.WF a
/-- All the text in a sequence of syntax trees is ASCII and the evaluated blocks are well-formed. -/
def Ast.WFList : List Ast → Prop
  | [] => True
  | a :: as => Ast.WF a ∧ Ast.WFList as
end

/-- Cut a text at the bracket that closes the one opened before it; `depth` brackets are open in between. -/
def closing (opn cls : Char) : (depth : Nat) → List LChar → Option (List LChar × List LChar)
  | _, [] => none
  | d, x :: t =>
    if x.1 = opn then (closing opn cls (d + 1) t).map fun p => (x :: p.1, p.2)
    else if x.1 = cls then
      if d = 0 then some ([], t) else (closing opn cls (d - 1) t).map fun p => (x :: p.1, p.2)
    else (closing opn cls d t).map fun p => (x :: p.1, p.2)

/-- Cut a text at the first comma outside brackets; `none` if a closing bracket has no partner. -/
def cutArg : (paren curly : Nat) → List LChar → Option (List LChar × List LChar)
  | _, _, [] => some ([], [])
  | p, c, x :: t =>
    if x.1 = '(' then (cutArg (p + 1) c t).map fun q => (x :: q.1, q.2)
    else if x.1 = ')' then if 0 < p then (cutArg (p - 1) c t).map fun q => (x :: q.1, q.2) else none
    else if x.1 = '{' then (cutArg p (c + 1) t).map fun q => (x :: q.1, q.2)
    else if x.1 = '}' then if 0 < c then (cutArg p (c - 1) t).map fun q => (x :: q.1, q.2) else none
    else if x.1 = ',' ∧ c = 0 ∧ p = 0 then some ([], x :: t)
    else (cutArg p c t).map fun q => (x :: q.1, q.2)

/-- The text without the blanks (spaces and tabs) in front. -/
def skipBlanks (t : List LChar) : List LChar := t.dropWhile fun x => x.1 == ' ' || x.1 == '\t'

/-- The functions the parser knows, in the order it tries them. -/
inductive Fn
  | eval
  | strip
  | words
  | word
  deriving DecidableEq, Repr

/-- Name of a function. -/
def Fn.name : Fn → Str
  | .eval => "eval".toList
  | .strip => "strip".toList
  | .words => "words".toList
  | .word => "word".toList

/-- Does the inside of a reference begin with the name of a function? -/
def calls (t : List LChar) : Option (Fn × List LChar) :=
  ([Fn.eval, Fn.strip, Fn.words, Fn.word].find? fun f => f.name.isPrefixOf (textOf t)).map fun f =>
    (f, skipBlanks (t.drop f.name.length))

/-- What comes of reading an expression: the expression or the error reported. -/
abbrev Outcome := Except ParseErrorKind (List Expr)

mutual
/-- How the parser reads a text, including its deviations from make: the braces of `${...}` are not recognised
(but `$}` is taken for an opening), a reference whose name begins with the name of a function is a call, and what
follows a call is dropped. -/
inductive Reads : List LChar → Outcome → Prop
  | nil : Reads [] (.ok [])
  | char {x : LChar} {t : List LChar} {o : Outcome} : x.1 ≠ '$' → Reads t o → Reads (x :: t) (o.map (.char x :: ·))
  | last {l : Location} : Reads [('$', l)] (.ok [.char ('$', l)])
  | dollar {l l' : Location} {t : List LChar} {o : Outcome} :
      Reads t o → Reads (('$', l) :: ('$', l') :: t) (o.map (.char ('$', l') :: ·))
  | single {l : Location} {x : LChar} {t : List LChar} {o : Outcome} : x.1 ≠ '$' → x.1 ≠ '(' → x.1 ≠ '}' →
      Reads t o → Reads (('$', l) :: x :: t) (o.map (.ref l [.char x] :: ·))
  | paren {l l' : Location} {t : List LChar} {o : Outcome} :
      ReadsRef l (closing '(' ')' 0 t) o → Reads (('$', l) :: ('(', l') :: t) o
  | brace {l l' : Location} {t : List LChar} {o : Outcome} :
      ReadsRef l (closing '{' '}' 0 t) o → Reads (('$', l) :: ('}', l') :: t) o
/-- Reading a bracketed reference and what follows it. -/
inductive ReadsRef : Location → Option (List LChar × List LChar) → Outcome → Prop
  | unclosed {l : Location} : ReadsRef l none (.error .unterminatedVariable)
  | ref {l : Location} {name rest : List LChar} {ns : List Expr} {o : Outcome} : calls name = none →
      Reads name (.ok ns) → Reads rest o → ReadsRef l (some (name, rest)) (o.map (.ref l ns :: ·))
  | nameError {l : Location} {name rest : List LChar} {k : ParseErrorKind} : calls name = none →
      Reads name (.error k) → ReadsRef l (some (name, rest)) (.error k)
  | call {l : Location} {name rest : List LChar} {f : Fn} {a : List LChar} {o : Outcome} : calls name = some (f, a) →
      ReadsCall l f a o → ReadsRef l (some (name, rest)) o
/-- Reading a function call. -/
inductive ReadsCall : Location → Fn → List LChar → Outcome → Prop
  | eval {l : Location} {a : List LChar} {o : Outcome} :
      Reads a o → ReadsCall l .eval a (o.map fun es => [.eval l es])
  | unbalanced {l : Location} {f : Fn} {a : List LChar} :
      f ≠ .eval → cutArg 0 0 a = none → ReadsCall l f a (.error .unterminatedVariable)
  | extra {l : Location} {f : Fn} {a x y : List LChar} : f = .strip ∨ f = .words → cutArg 0 0 a = some (x, y) → y ≠ [] →
      ReadsCall l f a (.error (.extraArguments f.name))
  | strip {l : Location} {a x : List LChar} {o : Outcome} : cutArg 0 0 a = some (x, []) → Reads x o →
      ReadsCall l .strip a (o.map fun es => [.strip l es])
  | words {l : Location} {a x : List LChar} {o : Outcome} : cutArg 0 0 a = some (x, []) → Reads x o →
      ReadsCall l .words a (o.map fun es => [.words l es])
  | few {l : Location} {a x : List LChar} : cutArg 0 0 a = some (x, []) →
      ReadsCall l .word a (.error (.insufficientArguments "word".toList))
  | indexError {l : Location} {a x y : List LChar} {c : LChar} {k : ParseErrorKind} : cutArg 0 0 a = some (x, c :: y) →
      Reads x (.error k) → ReadsCall l .word a (.error k)
  | unbalanced2 {l : Location} {a x y : List LChar} {c : LChar} {es : List Expr} : cutArg 0 0 a = some (x, c :: y) →
      Reads x (.ok es) → cutArg 0 0 (skipBlanks y) = none → ReadsCall l .word a (.error .unterminatedVariable)
  | extra2 {l : Location} {a x y z w : List LChar} {c : LChar} {es : List Expr} : cutArg 0 0 a = some (x, c :: y) →
      Reads x (.ok es) → cutArg 0 0 (skipBlanks y) = some (z, w) → w ≠ [] →
      ReadsCall l .word a (.error (.extraArguments "word".toList))
  | word {l : Location} {a x y z : List LChar} {c : LChar} {es : List Expr} {o : Outcome} :
      cutArg 0 0 a = some (x, c :: y) → Reads x (.ok es) → cutArg 0 0 (skipBlanks y) = some (z, []) → Reads z o →
      ReadsCall l .word a (o.map fun ws => [.word l es ws])
end

/-- What comes of parsing a span: all of it is read as the expression, or the error is reported. -/
def Parses (i : Span) : Outcome → Prop
  | .ok es => ∃ r a, parseAst i = .ok (.done r a) ∧ r.ltext = [] ∧ a.flat = es
  | .error k => parseAst i = .ok (.err (.failure (.custom k)))

/-- Brackets are balanced: every `(` has its `)`. -/
inductive Balanced : List LChar → Prop
  | nil : Balanced []
  | char {x : LChar} {t : List LChar} : x.1 ≠ '(' → x.1 ≠ ')' → Balanced t → Balanced (x :: t)
  | nest {l l' : Location} {a b : List LChar} :
      Balanced a → Balanced b → Balanced (('(', l) :: (a ++ (')', l') :: b))

/-- The text ends in a dollar sign that is not half of a `$$`. -/
def Dangling (t : List LChar) : Prop := (t.reverse.takeWhile fun x => x.1 == '$').length % 2 = 1

/-- The expression contains no function call (except perhaps inside the names of references). -/
def Plain (es : List Expr) : Prop := ∀ e ∈ es, (∃ x, e = .char x) ∨ ∃ l n, e = .ref l n

/-- The text begins with the name of a function. -/
def CallLike (t : List LChar) : Prop := ∃ f : Fn, f.name <+: textOf t

/-- The text begins with the name of a function and a blank: this is how make recognises a call. -/
def IsCall (t : List LChar) : Prop := ∃ (f : Fn) (c : Char), (c = ' ' ∨ c = '\t') ∧ f.name ++ [c] <+: textOf t

mutual
/-- An expression in make syntax.  Dollar signs are doubled, references are put in parentheses. -/
def Expr.print : Expr → List LChar
  | .char x => if x.1 = '$' then [x, x] else [x]
  | .ref l n => ('$', l) :: ('(', l) :: (Expr.printAll n ++ [(')', l)])
  | .eval l a => ('$', l) :: ('(', l) :: (locate l "eval ".toList ++ (Expr.printAll a ++ [(')', l)]))
  | .strip l a => ('$', l) :: ('(', l) :: (locate l "strip ".toList ++ (Expr.printAll a ++ [(')', l)]))
  | .word l i w => ('$', l) :: ('(', l) ::
      (locate l "word ".toList ++ (Expr.printAll i ++ (',', l) :: (Expr.printAll w ++ [(')', l)])))
  | .words l a => ('$', l) :: ('(', l) :: (locate l "words ".toList ++ (Expr.printAll a ++ [(')', l)]))
/-- A sequence of expressions in make syntax. -/
def Expr.printAll : List Expr → List LChar
  | [] => []
  | e :: es => Expr.print e ++ Expr.printAll es
end

/-- Built from text and references (to any depth).  The characters of a name are balanced, since `make` could not tell
where the name ends otherwise, and `ok` holds of the printed name. -/
inductive Printable (ok : List LChar → Prop) : List Expr → Prop
  | nil : Printable ok []
  | char {x : LChar} {es : List Expr} : Printable ok es → Printable ok (.char x :: es)
  | ref {l : Location} {n es : List Expr} : Printable ok n → Balanced (Expr.printAll n) → ok (Expr.printAll n) →
      Printable ok es → Printable ok (.ref l n :: es)

end Hastur
