import Verif.Model.Prelude

/-!
# The attribute `#[job]` (`aj_macro/src/lib.rs:28-176`)

The macro turns the tokens of a function into the tokens of a module. Modelled are the parts that depend on the
function: the parameter lists, the fields of the struct, the argument lists, the name of the struct. Types are opaque
tokens. Functions have no receiver, no generics and no attributes on parameters.

`Expansion.compile` is the part of the Rust compiler that accepts or rejects these lists (syntax of parameters, fields
and expressions; a name bound twice in one parameter list; the number of arguments of a call; two items of one name).
`Code.call` is what the accepted code does with arguments.
-/

namespace AJ.Macro

/-- Tokens of parameter lists and of what is made from them. -/
inductive Tok where
  | id (name : Str)
  | mut
  | colon
  | comma
  | ty (t : Str)
  /-- A pattern that is not an identifier: `_`, `(a, b)`, `Point { x, y }`. -/
  | pattern
  /-- `pub`, `self.`, `.clone()`. -/
  | pub
  | selfDot
  | clone
  deriving DecidableEq, Repr

/-- A pattern of a parameter: `syn::Pat::Ident` with or without `mut`, or another one. -/
inductive Pat where
  | ident (isMut : Bool) (name : Str)
  | other
  deriving DecidableEq, Repr

/-- `syn::PatType`. -/
structure Arg where
  pat : Pat
  ty : Str
  deriving DecidableEq, Repr

/-- `syn::Signature`: name, parameters, whether a comma follows the last parameter, `async`. -/
structure Sig where
  name : Str
  args : List Arg
  trailing : Bool := false
  isAsync : Bool := false
  deriving DecidableEq, Repr

/-- Tokens of `syn::PatIdent` and of other patterns. -/
def Pat.toks : Pat → List Tok
  | .ident true n => [.mut, .id n]
  | .ident false n => [.id n]
  | .other => [.pattern]

def Arg.toks (a : Arg) : List Tok := a.pat.toks ++ [.colon, .ty a.ty]

/-- Items separated by commas, as `#(#items),*` of `quote`. -/
def sepBy : List (List Tok) → List Tok
  | [] => []
  | [x] => x
  | x :: y :: xs => x ++ .comma :: sepBy (y :: xs)

/-- Tokens of `#fn_inputs`: a `syn::Punctuated` keeps its trailing comma. -/
def Sig.inputs (s : Sig) : List Tok :=
  sepBy (s.args.map Arg.toks) ++ if s.trailing && !s.args.isEmpty then [.comma] else []

/-- The parameters that are identifiers (`Pat::Ident`), with their tokens and types. -/
def Arg.ident? (a : Arg) : Option (List Tok × Str) := match a.pat with
  | .ident .. => some (a.pat.toks, a.ty)
  | .other => none

/-- What the macro generates (`aj_macro/src/lib.rs:111-173`). -/
structure Expansion where
  /-- `pub struct #job_struct_name` (`:127`). -/
  struct : Str
  /-- `#(#input_fields),*` (`:128`). -/
  fields : List Tok
  /-- The arguments of `#fn_name(#(#struct_as_args),*)` (`:101-109`). -/
  callArgs : List Tok
  /-- The parameters of `new`, `run` and `just_run` (`:144,151,157`). -/
  params : List Tok
  /-- The parameters of `run_with_context` and `just_run_with_context` (`:162,168`). -/
  ctxParams : List Tok
  /-- `#(#input_names),*`: the fields of the literal in `new`, and the arguments of `new` (`:146,152,158,163,169`). -/
  names : List Tok
  deriving DecidableEq, Repr

/-- `job` (`aj_macro/src/lib.rs:29-176`). `pascal` is `to_case(Case::Pascal)` of `convert_case`. -/
def expand (pascal : Str → Str) (s : Sig) : Expansion :=
  let idents := s.args.filterMap Arg.ident?
  { struct := c!"Job" ++ pascal s.name
    fields := sepBy (idents.map fun p => .pub :: p.1 ++ [.colon, .ty p.2])
    callArgs := sepBy (idents.map fun p => .selfDot :: p.1 ++ [.clone])
    params := s.inputs
    ctxParams := s.inputs ++ [.comma, .id c!"context", .colon, .ty c!"aj::JobContext"]
    names := sepBy (idents.map (·.1)) }

/-! ## The compiler -/

/-- A parameter list: parameters separated by commas, with or without a comma at the end. -/
def parseParams : List Tok → Option (List Pat)
  | [] => some []
  | .mut :: .id n :: .colon :: .ty _ :: rest => parseRest (.ident true n) rest
  | .id n :: .colon :: .ty _ :: rest => parseRest (.ident false n) rest
  | .pattern :: .colon :: .ty _ :: rest => parseRest .other rest
  | _ => none
where
  parseRest (p : Pat) : List Tok → Option (List Pat)
    | [] => some [p]
    | .comma :: rest => (parseParams rest).map (p :: ·)
    | _ => none

/-- Fields of a struct: `pub name: Type`, separated by commas. -/
def parseFields : List Tok → Option (List Str)
  | [] => some []
  | .pub :: .id n :: .colon :: .ty _ :: rest => match rest with
    | [] => some [n]
    | .comma :: rest => (parseFields rest).map (n :: ·)
    | _ => none
  | _ => none

/-- Arguments `self.name.clone()`, separated by commas. -/
def parseCallArgs : List Tok → Option (List Str)
  | [] => some []
  | .selfDot :: .id n :: .clone :: rest => match rest with
    | [] => some [n]
    | .comma :: rest => (parseCallArgs rest).map (n :: ·)
    | _ => none
  | _ => none

/-- Names separated by commas, as arguments or as fields of a literal. -/
def parseNames : List Tok → Option (List Str)
  | [] => some []
  | .id n :: rest => match rest with
    | [] => some [n]
    | .comma :: rest => (parseNames rest).map (n :: ·)
    | _ => none
  | _ => none

/-- The names a parameter list binds. Patterns may bind more; such functions are rejected below anyway. -/
def bound : List Pat → List Str
  | [] => []
  | .ident _ n :: ps => n :: bound ps
  | .other :: ps => bound ps

/-- Accepted code. -/
structure Code where
  struct : Str
  fields : List Str
  callArgs : List Str
  params : List Pat
  ctxParams : List Pat
  names : List Str
  deriving DecidableEq, Repr

/-- The names the module imports explicitly (`aj_macro/src/lib.rs:115`). -/
def imported : List Str := [c!"BackgroundJob", c!"JobContext"]

/-- The checks of the compiler on the generated lists. -/
def Expansion.compile (e : Expansion) : Option Code := do
  let fields ← parseFields e.fields
  let callArgs ← parseCallArgs e.callArgs
  let params ← parseParams e.params
  let ctxParams ← parseParams e.ctxParams
  let names ← parseNames e.names
  -- no name is bound twice in a parameter list, declared twice as a field
  if ¬ (bound params).Nodup ∨ ¬ (bound ctxParams).Nodup ∨ ¬ fields.Nodup then none
  -- the literal of `new` has exactly the fields of the struct, and `new` is called with as many arguments as it has
  -- parameters; every name used is bound
  else if ¬ (∀ n ∈ names, n ∈ bound params) ∨ ¬ (∀ n ∈ fields, n ∈ names) ∨ names.length ≠ params.length ∨
      ¬ (∀ n ∈ callArgs, n ∈ fields) then none
  -- the struct is not also an import
  else if e.struct ∈ imported then none
  else some ⟨e.struct, fields, callArgs, params, ctxParams, names⟩

/-! ## The generated code at work -/

/-- Bind parameters to arguments. -/
def bind {V : Type} : List Pat → List V → Option (List (Str × V))
  | [], [] => some []
  | .ident _ n :: ps, v :: vs => (bind ps vs).map ((n, v) :: ·)
  | .other :: ps, _ :: vs => bind ps vs
  | _, _ => none

/-- Values of names. -/
def values {V : Type} (env : List (Str × V)) (names : List Str) : Option (List V) := names.mapM fun n => List.lookup n env

/-- `new`: the struct as a list of fields with values. -/
def Code.new {V : Type} (c : Code) (vs : List V) : Option (List (Str × V)) := do
  let env ← bind c.params vs
  c.fields.mapM fun f => (List.lookup f env).map fun v => (f, v)

/-- `execute`: the arguments the function is called with. -/
def Code.execute {V : Type} (c : Code) (self : List (Str × V)) : Option (List V) := values self c.callArgs

/-- `run(vs)` and `just_run(vs)`, up to the call of the function when the job is executed. In between the struct is
stored and loaded (C09). -/
def Code.call {V : Type} (c : Code) (vs : List V) : Option (List V) := do
  let env ← bind c.params vs
  let args ← values env c.names
  let self ← c.new args
  c.execute self

/-- `run_with_context(vs, ctx)`: the arguments of the function and the context of the job. -/
def Code.callWithContext {V : Type} (c : Code) (vs : List V) : Option (List V × V) := do
  let env ← bind c.ctxParams vs
  let args ← values env c.names
  let self ← c.new args
  let ctx ← List.lookup c!"context" env
  let r ← c.execute self
  pure (r, ctx)

/-- `queue_name` of the derived `BackgroundJob` (`aj_macro/src/lib.rs:14-17`): the name of the struct. -/
def Code.queueName (c : Code) : Str := c.struct

end AJ.Macro
