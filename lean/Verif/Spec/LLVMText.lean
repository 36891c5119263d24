import Verif.Spec.LLVM

/-!
# Reading LLVM assembly

A lexer and a parser for the fragment of LLVM's assembly language in which the generated modules
are written, after the LLVM Language Reference: white space and comments separate tokens; a name
is bare or in quotes; `0x…` is a `double` constant.  The result is the function as data, whose
execution `Spec/LLVM.lean` describes.
-/

namespace Verif.Spec

/-! ### Tokens -/

/-- What comes before a name. -/
inductive Sigil where
  /-- nothing: a keyword, a type or a number -/
  | bare
  /-- `%` -/
  | loc
  /-- `@` -/
  | glob
deriving DecidableEq

inductive Tok where
  /-- a keyword, a type or a number -/
  | word (s : List Char)
  /-- `%name` or `%"name"` -/
  | loc (s : List Char)
  /-- `@name` or `@"name"` -/
  | glob (s : List Char)
  /-- a quoted string -/
  | str (s : List Char)
  /-- one of `, ( ) { } = *` -/
  | punct (c : Char)
deriving DecidableEq

/-- The state of the lexer between two characters. -/
inductive LexState where
  | idle
  /-- inside a bare name with the characters so far -/
  | name (k : Sigil) (acc : List Char)
  /-- inside quotes -/
  | quoted (k : Sigil) (acc : List Char)
  /-- after `%` or `@` -/
  | sigil (k : Sigil)
  | comment
deriving DecidableEq

/-- White space. -/
def isSpaceChar (c : Char) : Bool := c = ' ' || c = '\n' || c = '\t' || c = '\r'
/-- Punctuation. -/
def isPunct (c : Char) : Bool :=
  c = ',' || c = '(' || c = ')' || c = '{' || c = '}' || c = '=' || c = '*'
/-- Characters of bare names and numbers. -/
def isNameChar (c : Char) : Bool := c.isAlphanum || c = '.' || c = '_' || c = '$' || c = '-'

/-- A finished bare name. -/
def nameTok : Sigil → List Char → Tok
  | .bare, s => .word s
  | .loc, s => .loc s
  | .glob, s => .glob s
/-- A finished quoted name. -/
def quotedTok : Sigil → List Char → Tok
  | .bare, s => .str s
  | .loc, s => .loc s
  | .glob, s => .glob s

/-- Between tokens. -/
def idleStep (c : Char) : Option (List Tok × LexState) :=
  if isSpaceChar c then some ([], .idle)
  else if isPunct c then some ([.punct c], .idle)
  else if c = ';' then some ([], .comment)
  else if c = '%' then some ([], .sigil .loc)
  else if c = '@' then some ([], .sigil .glob)
  else if c = '"' then some ([], .quoted .bare [])
  else if isNameChar c then some ([], .name .bare [c])
  else none

/-- One character.  Inside quotes a backslash is refused (LLVM reads it as an escape), as are NUL
and, for names, an empty name. -/
def lexStep : LexState → Char → Option (List Tok × LexState)
  | .idle, c => idleStep c
  | .name k acc, c =>
    if isNameChar c then some ([], .name k (acc ++ [c]))
    else (idleStep c).map (fun r => (nameTok k acc :: r.1, r.2))
  | .quoted k acc, c =>
    if c = '"' then
      if k ≠ .bare ∧ acc = [] then none else some ([quotedTok k acc], .idle)
    else if c = '\\' ∨ c.toNat = 0 then none
    else some ([], .quoted k (acc ++ [c]))
  | .sigil k, c =>
    if c = '"' then some ([], .quoted k [])
    else if isNameChar c then some ([], .name k [c])
    else none
  | .comment, c => some ([], if c = '\n' then .idle else .comment)

/-- Several characters. -/
def lexRun : LexState → List Char → Option (List Tok × LexState)
  | s, [] => some ([], s)
  | s, c :: cs => do
    let (ts, s') ← lexStep s c
    let (us, s'') ← lexRun s' cs
    return (ts ++ us, s'')

/-- The tokens of a text (a newline is added at the end). -/
def lexText (text : String) : Option (List Tok) :=
  match lexRun .idle (text.toList ++ ['\n']) with
  | some (ts, .idle) => some ts
  | _ => none

/-! ### Parser -/

/-- A keyword or type. -/
abbrev kw (s : String) : Tok := .word s.toList

/-- `%"name"`, as the operands of `Instr` are written. -/
def localText (s : List Char) : String := "%\"" ++ String.ofList s ++ "\""

/-- An operand: a local name or a constant `0x…`. -/
def parseOperand : List Tok → Option (String × List Tok)
  | .loc s :: rest => some (localText s, rest)
  | .word s :: rest =>
    match hexValue (String.ofList s) with
    | some _ => some (String.ofList s, rest)
    | none => none
  | _ => none

/-- The expected token. -/
def expect (t : Tok) : List Tok → Option (List Tok)
  | u :: rest => if u = t then some rest else none
  | [] => none

/-- `<type double> operand` -/
def parseTyped (ts : List Tok) : Option (String × List Tok) := do
  let ts ← expect (kw "double") ts
  parseOperand ts

/-- A decimal number. -/
def parseNat (s : List Char) : Option Nat :=
  if s ≠ [] ∧ s.all Char.isDigit then some (s.foldl (fun n c => 10 * n + (c.toNat - '0'.toNat)) 0)
  else none

/-- The intrinsic functions. -/
def intrinsic (s : List Char) : Option String :=
  if s = "llvm.pow.f64".toList then some "pow"
  else if s = "llvm.sin.f64".toList then some "sin"
  else if s = "llvm.cos.f64".toList then some "cos"
  else none

/-- The arguments of a call after the first, up to the closing parenthesis. -/
def parseArgs : Nat → List Tok → Option (List String × List Tok)
  | 0, _ => none
  | fuel + 1, ts =>
    match ts with
    | .punct ')' :: rest => some ([], rest)
    | .punct ',' :: rest => do
      let (a, rest) ← parseTyped rest
      let (as, rest) ← parseArgs fuel rest
      return (a :: as, rest)
    | _ => none

/-- The right-hand side of `dst = …`. -/
def parseRhs (dst : String) : List Tok → Option (Instr × List Tok)
  | .word op :: ts =>
    if op = "fadd".toList ∨ op = "fmul".toList then do
      let (a, ts) ← parseTyped ts
      let ts ← expect (.punct ',') ts
      let (b, ts) ← parseOperand ts
      return (.arith dst (String.ofList op) [a, b], ts)
    else if op = "call".toList then do
      let ts ← expect (kw "double") ts
      match ts with
      | .glob f :: ts => do
        let fn ← intrinsic f
        let ts ← expect (.punct '(') ts
        let (a, ts) ← parseTyped ts
        let (as, ts) ← parseArgs ts.length ts
        return (.call dst fn (a :: as), ts)
      | _ => none
    else if op = "getelementptr".toList then do
      let ts ← expect (kw "double") ts
      let ts ← expect (.punct ',') ts
      let ts ← expect (kw "double") ts
      let ts ← expect (.punct '*') ts
      match ts with
      | .loc base :: ts => do
        let ts ← expect (.punct ',') ts
        let ts ← expect (kw "i32") ts
        match ts with
        | .word n :: ts => do
          let n ← parseNat n
          return (.gep dst (localText base) n, ts)
        | _ => none
      | _ => none
    else none
  | _ => none

/-- One instruction. -/
def parseInstr : List Tok → Option (Instr × List Tok)
  | .loc d :: ts => do
    let ts ← expect (.punct '=') ts
    parseRhs (localText d) ts
  | .word op :: ts =>
    if op = "store".toList then do
      let (v, ts) ← parseTyped ts
      let ts ← expect (.punct ',') ts
      let ts ← expect (kw "double") ts
      let ts ← expect (.punct '*') ts
      match ts with
      | .loc p :: ts => return (.store v (localText p), ts)
      | _ => none
    else if op = "ret".toList then
      match ts with
      | .word t :: ts =>
        if t = "void".toList then some (.retVoid, ts)
        else if t = "double".toList then do
          let (v, ts) ← parseOperand ts
          return (.ret v, ts)
        else none
      | _ => none
    else none
  | _ => none

/-- The instructions up to the closing brace, which ends the module. -/
def parseBody : Nat → List Tok → Option (List Instr)
  | 0, _ => none
  | fuel + 1, ts =>
    match ts with
    | [.punct '}'] => some []
    | ts => do
      let (i, ts) ← parseInstr ts
      let is ← parseBody fuel ts
      return i :: is

/-- The `double` parameters up to the closing parenthesis; `first` says that no comma is due. -/
def parseParams : Nat → Bool → List Tok → Option (List String × List Tok)
  | 0, _, _ => none
  | fuel + 1, first, ts =>
    match ts with
    | .punct ')' :: rest => some ([], rest)
    | ts => do
      let ts ← if first then some ts else expect (.punct ',') ts
      let ts ← expect (kw "double") ts
      match ts with
      | .loc s :: ts => do
        let (ps, ts) ← parseParams fuel false ts
        return (localText s :: ps, ts)
      | _ => none

/-- The function: `define double @jit_func1(double …) { … }` or
`define void @jit_func1(double* %_out, double …) { … }`. -/
def parseFunction (ts : List Tok) : Option IRFunction := do
  let ts ← expect (kw "define") ts
  match ts with
  | .word t :: ts => do
    let ts ← expect (.glob "jit_func1".toList) ts
    let ts ← expect (.punct '(') ts
    if t = "double".toList then do
      let (ps, ts) ← parseParams ts.length true ts
      let ts ← expect (.punct '{') ts
      let body ← parseBody ts.length ts
      return ⟨false, ps, body⟩
    else if t = "void".toList then do
      let ts ← expect (kw "double") ts
      let ts ← expect (.punct '*') ts
      let ts ← expect (.loc "_out".toList) ts
      let (ps, ts) ← parseParams ts.length false ts
      let ts ← expect (.punct '{') ts
      let body ← parseBody ts.length ts
      return ⟨true, ps, body⟩
    else none
  | _ => none

/-- The declarations `declare double @name(double %…, …)`: name and number of parameters. -/
def parseHeader : Nat → List Tok → Option (List (String × Nat) × List Tok)
  | 0, _ => none
  | fuel + 1, ts =>
    match ts with
    | .word w :: rest =>
      if w = "target".toList then
        match rest with
        | .word _ :: .punct '=' :: .str _ :: rest => parseHeader fuel rest
        | _ => none
      else if w = "declare".toList then
        match rest with
        | .word t :: .glob f :: .punct '(' :: rest =>
          if t = "double".toList then do
            let (ps, rest) ← parseParams rest.length true rest
            let (ds, rest) ← parseHeader fuel rest
            return ((String.ofList f, ps.length) :: ds, rest)
          else none
        | _ => none
      else some ([], ts)
    | _ => some ([], ts)

/-- A module: its declarations and its function. -/
def parseModule (text : String) : Option (List (String × Nat) × IRFunction) := do
  let ts ← lexText text
  let (ds, ts) ← parseHeader ts.length ts
  let fn ← parseFunction ts
  return (ds, fn)

/-- The functions a body calls, with the number of arguments. -/
def Instr.callee : Instr → Option (String × Nat)
  | .call _ fn args => some ("llvm." ++ fn ++ ".f64", args.length)
  | _ => none

/-- Compile a module and call its function: the module must be well formed, in SSA form, and
every function it calls declared with that number of parameters. -/
def RunsModule {F : Type} (A : IRArith F) (text : String) (vs mem : List F)
    (result : Option F × List F) : Prop :=
  ∃ ds fn, parseModule text = some (ds, fn) ∧ SSA fn ∧
    (∀ i ∈ fn.body, ∀ c, Instr.callee i = some c → c ∈ ds) ∧
    IRFunction.run A fn vs mem = some result

end Verif.Spec
