import Verif.Spec.Double
import Verif.Spec.Print

/-!
# Reading Python expressions

A reader for the fragment of Python's expressions that consists of integer and string literals and
calls of named callables, after the Python Language Reference: `pyEval env text` is `eval(text)`
where the names are bound by `env`.
-/

namespace Verif.Spec

/-! ### Tokens -/

inductive PTok where
  | name (s : String)
  | int (n : Nat)
  | str (s : String)
  /-- one of `( ) , -` -/
  | op (c : Char)
deriving DecidableEq

/-- The state of the lexer between two characters. -/
inductive PLex where
  | idle
  | name (acc : List Char)
  | num (acc : List Char)
  /-- inside a string literal with the quotes `q` -/
  | str (q : Char) (acc : List Char)
  /-- after a backslash -/
  | esc (q : Char) (acc : List Char)
  /-- `k + 1` hexadecimal digits of a `\x`, `\u` or `\U` escape are still to come -/
  | hex (q : Char) (acc : List Char) (k : Nat) (v : Nat)
deriving DecidableEq

/-- The keywords of Python, which are not names. -/
def pyKeywords : List String :=
  ["False", "None", "True", "and", "as", "assert", "async", "await", "break", "class", "continue",
   "def", "del", "elif", "else", "except", "finally", "for", "from", "global", "if", "import", "in",
   "is", "lambda", "nonlocal", "not", "or", "pass", "raise", "return", "try", "while", "with",
   "yield"]

def nameStart (c : Char) : Bool := c.isAlpha || c = '_'
def nameChar (c : Char) : Bool := c.isAlphanum || c = '_'
def isOp (c : Char) : Bool := c = '(' || c = ')' || c = ',' || c = '-'

/-- Between tokens. -/
def pIdle (c : Char) : Option (List PTok × PLex) :=
  if c = ' ' then some ([], .idle)
  else if isOp c then some ([.op c], .idle)
  else if c = '\'' ∨ c = '"' then some ([], .str c [])
  else if nameStart c then some ([], .name [c])
  else if c.isDigit then some ([], .num [c])
  else none

/-- A finished name. -/
def pName (acc : List Char) : Option PTok :=
  if String.ofList acc ∈ pyKeywords then none else some (.name (String.ofList acc))

/-- A finished number: no leading zeros, unless it is zero. -/
def pNum (acc : List Char) : Option PTok :=
  if acc.head? = some '0' ∧ ∃ c ∈ acc, c ≠ '0' then none
  else some (.int (acc.foldl (fun n c => 10 * n + (c.toNat - '0'.toNat)) 0))

/-- One character. -/
def pStep : PLex → Char → Option (List PTok × PLex)
  | .idle, c => pIdle c
  | .name acc, c =>
    if nameChar c then some ([], .name (acc ++ [c]))
    else do
      let t ← pName acc
      let (ts, s) ← pIdle c
      return (t :: ts, s)
  | .num acc, c =>
    if c.isDigit then some ([], .num (acc ++ [c]))
    else if nameChar c then none
    else do
      let t ← pNum acc
      let (ts, s) ← pIdle c
      return (t :: ts, s)
  | .str q acc, c =>
    if c = q then some ([.str (String.ofList acc)], .idle)
    else if c = '\\' then some ([], .esc q acc)
    else if c = '\n' ∨ c = '\r' ∨ c.toNat = 0 then none
    else some ([], .str q (acc ++ [c]))
  | .esc q acc, c =>
    if c = '\\' ∨ c = '\'' ∨ c = '"' then some ([], .str q (acc ++ [c]))
    else if c = 'n' then some ([], .str q (acc ++ ['\n']))
    else if c = 'r' then some ([], .str q (acc ++ ['\r']))
    else if c = 't' then some ([], .str q (acc ++ ['\t']))
    else if c = 'x' then some ([], .hex q acc 1 0)
    else if c = 'u' then some ([], .hex q acc 3 0)
    else if c = 'U' then some ([], .hex q acc 7 0)
    else none
  | .hex q acc k v, c =>
    match hexDigit c with
    | none => none
    | some d =>
      match k with
      | k + 1 => some ([], .hex q acc k (16 * v + d))
      | 0 =>
        if (16 * v + d).isValidChar then some ([], .str q (acc ++ [Char.ofNat (16 * v + d)]))
        else none

/-- Several characters. -/
def pRun : PLex → List Char → Option (List PTok × PLex)
  | s, [] => some ([], s)
  | s, c :: cs => do
    let (ts, s') ← pStep s c
    let (us, s'') ← pRun s' cs
    return (ts ++ us, s'')

/-- The tokens of a text (a space is added at the end). -/
def pLex (text : String) : Option (List PTok) :=
  match pRun .idle (text.toList ++ [' ']) with
  | some (ts, .idle) => some ts
  | _ => none

/-! ### Parser -/

/-- Expressions: `5`, `-5`, `'a'`, `f(...)`. -/
inductive PyExp where
  | int (n : Int)
  | str (s : String)
  | call (f : String) (args : List PyExp)

mutual
/-- An expression at the beginning of the tokens, and what follows it.  The first argument bounds
the depth of the recursion (the number of tokens is enough). -/
def pExpr : Nat → List PTok → Option (PyExp × List PTok)
  | 0, _ => none
  | _ + 1, .int n :: r => some (.int n, r)
  | _ + 1, .op '-' :: .int n :: r => some (.int (-n), r)
  | _ + 1, .str s :: r => some (.str s, r)
  | _ + 1, .name f :: .op '(' :: .op ')' :: r => some (.call f [], r)
  | k + 1, .name f :: .op '(' :: r => do
    let (args, r) ← pArgs k r
    return (.call f args, r)
  | _, _ => none
/-- Arguments separated by commas up to the closing bracket. -/
def pArgs : Nat → List PTok → Option (List PyExp × List PTok)
  | 0, _ => none
  | k + 1, ts => do
    let (e, r) ← pExpr k ts
    match r with
    | .op ')' :: r => return ([e], r)
    | .op ',' :: r => do
      let (es, r) ← pArgs k r
      return (e :: es, r)
    | _ => none
end

/-- The expression that a text consists of. -/
def pParse (text : String) : Option PyExp := do
  let ts ← pLex text
  match pExpr ts.length ts with
  | some (e, []) => some e
  | _ => none

/-! ### Evaluation -/

/-- Python objects that occur in these expressions. -/
inductive PyValue where
  | val (v : Val)
  | atom (a : Atom Val)
  | tree (t : Tree Val)
  /-- a `Sym` with this `rep` -/
  | sym (rep : Tree Val)

/-- `isinstance(child, Tree)` -/
def PyValue.asTree : PyValue → Option (Tree Val)
  | .tree t => some t
  | _ => none

/-- What a name can be bound to. -/
inductive PyCallable where
  /-- `protosym.core.tree.Tree` -/
  | tree
  /-- `protosym.core.tree.Tr` -/
  | tr
  /-- `protosym.core.sym.Sym` -/
  | sym
  | atomType (ty : AtomType)
deriving DecidableEq

/-- A call; `none` if it raises. -/
def PyCallable.apply : PyCallable → List PyValue → Option PyValue
  | .tree, args => do
    let ts ← args.mapM PyValue.asTree
    return .tree (.node ts)
  | .tr, [.atom a] => some (.tree (.atom a))
  | .sym, [.tree t] => some (.sym t)
  | .atomType ty, [.val v] => some (.atom ⟨ty, v⟩)
  | _, _ => none

mutual
/-- The value of an expression. -/
def PyExp.eval (env : String → Option PyCallable) : PyExp → Option PyValue
  | .int n => some (.val (.int n))
  | .str s => some (.val (.str s))
  | .call f args => do
    let fn ← env f
    let vs ← PyExp.evalAll env args
    fn.apply vs
/-- Pointwise. -/
def PyExp.evalAll (env : String → Option PyCallable) : List PyExp → Option (List PyValue)
  | [] => some []
  | e :: es => do
    let v ← PyExp.eval env e
    let vs ← PyExp.evalAll env es
    return v :: vs
end

/-- `eval(text)` -/
def pyEval (env : String → Option PyCallable) (text : String) : Option PyValue := do
  let e ← pParse text
  e.eval env

/-! ### Names -/

/-- A name that Python accepts (ASCII). -/
def IsIdentifier (s : String) : Prop := IsName s ∧ s ∉ pyKeywords

/-- `ty` is the type of an atom that occurs in `t` (also inside heads). -/
def UsesType (t : Tree Val) (ty : AtomType) : Prop :=
  ∃ v, Reach true (fun _ => False) t (.atom ⟨ty, v⟩)

/-- The names are bound as in the module that made `t`: `Tree` and `Tr` are protosym's, and every
atom type is bound to its name. -/
structure Imports (env : String → Option PyCallable) (t : Tree Val) : Prop where
  tree : env "Tree" = some .tree
  tr : env "Tr" = some .tr
  types : ∀ ty, UsesType t ty → IsIdentifier ty.name ∧ env ty.name = some (.atomType ty)

/-- The names bound by `from protosym.core.tree import *` and simplecas. -/
def simplecasEnv (n : String) : Option PyCallable :=
  if n = "Tree" then some .tree else if n = "Tr" then some .tr else if n = "Sym" then some .sym
  else if n = "Integer" then some (.atomType Ty.integer)
  else if n = "Symbol" then some (.atomType Ty.symbol)
  else if n = "Function" then some (.atomType Ty.function)
  else if n = "Wild" then some (.atomType Ty.wild)
  else if n = "Star" then some (.atomType Ty.star)
  else none

end Verif.Spec
