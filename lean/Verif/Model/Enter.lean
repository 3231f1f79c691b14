import Verif.Model.LangProg
import Verif.Model.File
/-! Model of what a line entered in the shell, or a loaded file, does to the definitions: `ogma-shell/lib.rs:132-191` `on_enter`, `:235-257`
`load_defs_files`, `ogma/src/lang/defs.rs:189-211` `add_from_file`, `add_from_str`, `:276-429` `process_definition`, `ogma-ls/workspace.rs:130-140`
`def_load`. Here definitions arrive as text; what is done with them once they are parsed is in `Model/Defs.lean`. -/
namespace Verif.Enter
open Verif

abbrev Str := List Char

/-- `str::contains`. -/
def contains (p : Str) : Str → Bool
  | [] => p.isEmpty
  | c :: s => p.isPrefixOf (c :: s) || contains p s

def defWord : Str := ['d', 'e', 'f', ' ']
def tyWord : Str := ['d', 'e', 'f', '-', 't', 'y', ' ']
def helpFlag : Str := ['-', '-', 'h', 'e', 'l', 'p']
def listFlag : Str := [' ', '-', '-', 'l', 'i', 's', 't']
def clearFlag : Str := [' ', '-', '-', 'c', 'l', 'e', 'a', 'r']
def loadFlag : Str := [' ', '-', '-', 'l', 'o', 'a', 'd']

/-- `defs.rs:260-262` `recognise_definition`. -/
def recognise (s : Str) : Bool := defWord.isPrefixOf s || tyWord.isPrefixOf s

/-- What the parser is given: the commands known are those that are defined. -/
def envOf (C : Parse.Env) (d : Defs.Defs) : Parse.Env := { C with known := fun s => d.containsOp (Prog.str s) }

/-! ### The commands of a definition -/

/-- The command of a block (`ast.rs:271-276`); `none` is a panic. -/
def headOf : Parse.Blk → Option String
  | .mk _ o _ _ => Prog.readOp o

mutual
/-- `defs.rs:431-449` `assert_all_ops_defined`: the commands in the order in which they are looked at. The expressions found are put on a
stack, so the last is looked at first. -/
def opsE : Parse.Expr → List (Option String)
  | .mk bs _ => bs.map headOf ++ subBs bs
def subBs : List Parse.Blk → List (Option String)
  | [] => []
  | b :: bs => subBs bs ++ subB b
def subB : Parse.Blk → List (Option String)
  | .mk _ _ _ ts => subTs ts
def subTs : List Parse.Term → List (Option String)
  | [] => []
  | t :: ts => subTs ts ++ subT t
def subT : Parse.Term → List (Option String)
  | .flag _ => []
  | .arg a => subA a
def subA : Parse.Arg → List (Option String)
  | .expr e => opsE e
  | .dot lhs _ _ => some "." :: subA lhs
  | .ident _ => []
  | .num _ => []
  | .pound _ => []
  | .var _ => []
end

/-- `defs.rs:435-448`: looks at one command after the other. `none` is a panic; `false`: one of them is not defined. -/
def checkOps (d : Defs.Defs) : List (Option String) → Option Bool
  | [] => some true
  | none :: _ => none
  | some n :: ns => if d.containsOp n then checkOps d ns else some false

/-! ### Requests -/

/-- `ast.rs:508-517`: a field as written. -/
def rawField (f : Parse.Field) : Defs.RawField := ⟨Prog.str f.name, Prog.str f.ty, f.params.map Prog.str⟩

/-- `types.rs:443-474` `from_parsed_def`; a variant without fields is one with no fields. -/
def rawShape : Parse.TyBody → Defs.Shape Defs.RawField
  | .sum vs => .sum (vs.map fun v => (Prog.str v.1, (v.2.getD []).map rawField))
  | .product fs => .product (fs.map rawField)

/-- `defs.rs:302-375` `process_impl`, up to storing: what is asked for; `none` is a panic. -/
def implReq (k : Parse.Env) (d : Defs.Defs) (text : Str) : Option Defs.Req :=
  if contains helpFlag text then some .help
  else if contains listFlag text then some .list
  else if contains clearFlag text then some .clear
  else match Parse.definitionImpl k text with
    | .ok _ df => (checkOps d (opsE df.body)).map fun _ =>
      .impl (Prog.str df.name) (df.inTy.map Prog.str) ((opsE df.body).filterMap id) (Prog.str text)
    | _ => some .malformed

/-- `defs.rs:377-429` `process_ty`, up to storing; `none` is a panic (`todo!`). -/
def tyReq (k : Parse.Env) (text : Str) : Option Defs.Req :=
  if contains helpFlag text then none
  else if contains listFlag text then none
  else if contains clearFlag text then none
  else match Parse.definitionType k text with
    | .ok _ dt => some (.type_ (Prog.str dt.name) (rawShape dt.body))
    | _ => some .malformed

/-- `defs.rs:276-300` `process_definition`. -/
def reqOf (k : Parse.Env) (d : Defs.Defs) (text : Str) : Option Defs.Req :=
  if defWord.isPrefixOf text then implReq k d text
  else if tyWord.isPrefixOf text then tyReq k text
  else some .malformed

/-- `defs.rs:356-360`: the type of input meant; `none`: it is not known. -/
def keyOf (d : Defs.Defs) : Option String → Option (Option Defs.Ty)
  | none => some none
  | some t => (Defs.tyOf d.types t).map some

/-! ### Sessions -/

/-- The definitions, and what the parser was given when the text of a definition was read. A text is stored for one name
(`text_has_one_place`). -/
structure Session where
  defs : Defs.Defs
  env : String → Parse.Env

/-- The result: done, or refused with an error, or a panic. -/
inductive Out
  | ok (s : Session)
  | err (s : Session)
  | panic

/-- The environment is kept with the text of a definition. -/
def noted (k : Parse.Env) (env : String → Parse.Env) : Defs.Req → String → Parse.Env
  | .impl _ _ _ src => fun x => if x = src then k else env x
  | _ => env

/-- `process_definition`, with what is kept. -/
def define (C : Parse.Env) (checked : Bool) (s : Session) (loc : Defs.Loc) (text : Str) : Out :=
  match reqOf (envOf C s.defs) s.defs text with
  | none => .panic
  | some r => match Defs.process checked s.defs loc r with
    | .ok d => .ok ⟨d, noted (envOf C s.defs) s.env r⟩
    | .err d => .err ⟨d, s.env⟩
    | .panic => .panic

/-- Whether the name of a definition in a file can be read (`file.rs:184-185`, `:195-196`). -/
def headRead (C : Parse.Env) (code : Str) : Bool :=
  if tyWord.dropLast.isPrefixOf code then
    (Parse.ws (fun i => (Nom.tag tyWord i).bind fun i _ => File.opIdent C.cls i) code).isOk
  else (Parse.defOp C code).isOk

/-- `defs.rs:202-208`: one item of a file after the other, up to an error. -/
def addItems (C : Parse.Env) (checked : Bool) (path : String) : Session → List File.Item → Out
  | s, [] => .ok s
  | s, i :: is => match define C checked s (.file path i.line) i.code with
    | .ok s => addItems C checked path s is
    | o => o

/-- `defs.rs:196-211` `add_from_str`. -/
def addText (C : Parse.Env) (checked : Bool) (path : String) (s : Session) (text : Str) : Out :=
  match File.file C.cls (headRead C) text with
  | .ok f => addItems C checked path s (f.types ++ f.impls)
  | .error .parse => .err s
  | .error .panic => .panic

/-- The session goes on after an error. -/
def Out.after : Out → Option Session
  | .ok s => some s
  | .err s => some s
  | .panic => none

/-- `lib.rs:235-257` `load_defs_files`: the files with their contents, if they can be read; after an error, the next. `none` is a panic. -/
def loadAll (C : Parse.Env) (checked : Bool) : Session → List (String × Option Str) → Option Session
  | s, [] => some s
  | s, (_, none) :: fs => loadAll C checked s fs
  | s, (p, some text) :: fs => (addText C checked p s text).after.bind fun s => loadAll C checked s fs

def cdWord : Str := ['c', 'd', ' ']
def runWord : Str := ['r', 'u', 'n', ' ']

/-- What happens to the definitions: a line is entered, with the definition files as they are then; or the language server loads its
documents, in some order (`workspace.rs:130-140`). -/
inductive Event
  | line (text : Str) (files : List (String × Option Str))
  | reload (docs : List (String × Str))

/-- `lib.rs:147-186` `on_enter`: changes of directory, batches, which have definitions of their own (`lib.rs:364`), and expressions do not
change the definitions. -/
def enter (C : Parse.Env) (checked : Bool) (s : Session) (text : Str) (files : List (String × Option Str)) : Option Session :=
  if cdWord.isPrefixOf text then some s
  else if runWord.isPrefixOf text then some s
  else if recognise text then
    if contains loadFlag text then loadAll C checked s files
    else (define C checked s .shell text).after
  else some s

/-- One event; `none` is a panic. -/
def step (C : Parse.Env) (checked : Bool) (s : Session) : Event → Option Session
  | .line text files => enter C checked s text files
  | .reload docs => loadAll C checked ⟨s.defs.clear false, s.env⟩ (docs.map fun d => (d.1, some d.2))

def run (C : Parse.Env) (checked : Bool) : Session → List Event → Option Session
  | s, [] => some s
  | s, e :: es => (step C checked s e).bind fun s => run C checked s es

/-! ### The beginning -/

/-- `defs.rs:27-38`: the types, the built-in commands and the constructors of `Ord`. -/
def bare : Defs.Defs :=
  let m := Defs.builtins.foldl (fun m (n, t) => Defs.setImpl m n t (.intrinsic .ogma (.builtin n))) []
  let m := [("Ord::Lt", 0), ("Ord::Eq", 1), ("Ord::Gt", 2)].foldl
    (fun m (n, i) => Defs.setImpl m n none (.intrinsic .ogma (.ctor "Ord" i))) m
  ⟨m, Defs.baseTypes⟩

/-- `defs.rs:231-250` `add_derived_impl`; `none` is a panic. -/
def addDerived (C : Parse.Env) (s : Session) (src : String) : Option Session :=
  match Parse.definitionImpl (envOf C s.defs) src.toList with
  | .ok _ df => match keyOf s.defs (df.inTy.map Prog.str) with
    | none => none
    | some ty => match Defs.insertImpl s.defs (Prog.str df.name) ty .ogma src with
      | .ok d => some ⟨d, noted (envOf C s.defs) s.env (.impl (Prog.str df.name) (df.inTy.map Prog.str) [] src)⟩
      | _ => none
  | _ => none

def addAllDerived (C : Parse.Env) : Session → List String → Option Session
  | s, [] => some s
  | s, t :: ts => (addDerived C s t).bind fun s => addAllDerived C s ts

/-- `defs.rs:26-186` `Definitions::new`. -/
def start (C : Parse.Env) : Option Session := addAllDerived C ⟨bare, fun _ => C⟩ (Defs.derived.map fun x => x.2.2)

end Verif.Enter
