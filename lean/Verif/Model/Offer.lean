import Verif.Model.ParseErr
import Verif.Model.Listing
import Verif.Model.LsText
import Verif.Model.Shell
/-! Model of what completion offers and hover shows: `ogma-ls/completion.rs`, `ogma-ls/workspace.rs`, `ogma-ls/server/hover.rs`,
`ogma-shell/lib.rs:453-479`, `ogma-shell/interface/completions.rs:223-242`. -/
namespace Verif.Offer
open Verif

abbrev Text := List Char

/-- `completion.rs:19-30` `Kind`. -/
inductive Kind
  | impl | type | file | dir | lit
deriving DecidableEq, Repr

/-- `completion.rs:9-16` `Def`. -/
structure Def where
  name : Text
  kind : Kind
  doc : Option Text
deriving DecidableEq, Repr

/-- `completion.rs:263-278` `as_str`. -/
def kindText : Tags.NodeType → Text
  | .command => ['c', 'o', 'm', 'm', 'a', 'n', 'd']
  | .type => ['t', 'y', 'p', 'e']
  | .ident => ['i', 'd', 'e', 'n', 't']
  | .num => ['n', 'u', 'm', 'b', 'e', 'r']
  | .pound => ['s', 'p', 'e', 'c', '-', 'l', 'i', 't', 'e', 'r', 'a', 'l']
  | .var => ['v', 'a', 'r', 'i', 'a', 'b', 'l', 'e']
  | .flag => ['f', 'l', 'a', 'g']
  | .parameter => ['p', 'a', 'r', 'a', 'm', 'e', 't', 'e', 'r']
  | .field => ['f', 'i', 'e', 'l', 'd']
  | .variant => ['v', 'a', 'r', 'i', 'a', 'n', 't']
  | .tyParameter => ['t', 'y', 'p', 'e', ' ', 'p', 'a', 'r', 'a', 'm', 'e', 't', 'e', 'r']

/-- `workspace.rs:15-17` `doc_header`. -/
def docHeader (name : Text) (t : Tags.NodeType) : Text := '`' :: (name ++ ('`' :: ' ' :: '[' :: '_' :: (kindText t ++ ['_', ']'])))

/-- `workspace.rs:19-24` `add_doc_body`. -/
def addBody (header body : Text) : Text := header ++ ('\n' :: '\n' :: '`' :: '`' :: '`' :: '\n' :: (body ++ ['\n', '`', '`', '`']))

/-- What a workspace is made of here: its definitions, what the help of each implementation and type says, the order help takes the
implementations of a name in, and how an error prints. -/
structure Wsp where
  defs : Defs.Defs
  msg : Option Defs.Ty → Defs.Impl → Help.Message
  order : List (Option Text × Help.Message) → List (Option Text × Help.Message)
  tyMsg : Defs.TyEntry → Help.Message
  print : Help.Shown → Text

/-- `workspace.rs:105-112` `impl_help_string`; the outer `none` is a panic. -/
def implHelp (W : Wsp) (n : Text) : Option (Option Text) := (Help.stored W.msg W.order W.defs n).map fun o => o.map W.print

/-- `workspace.rs:120`, `workspace.rs:173`: the help of a type. -/
def tyHelp (W : Wsp) (e : Defs.TyEntry) : Option (Option Text) := (Help.all [(none, W.tyMsg e)]).map fun o => o.map W.print

/-- `workspace.rs:114-121` `type_help_string`. -/
def typeHelp (W : Wsp) (n : Text) : Option (Option Text) :=
  match AMap.get W.defs.types (String.ofList n) with
  | none => some none
  | some e => tyHelp W e

/-- `Itertools::dedup`: of equal elements in a row only one is kept. -/
def dedup : List String → List String
  | [] => []
  | [x] => [x]
  | x :: y :: l => if x = y then dedup (y :: l) else x :: dedup (y :: l)

/-- All results, or the first panic. -/
def allOf {α β : Type} (f : α → Option β) : List α → Option (List β)
  | [] => some []
  | a :: as => (f a).bind fun b => (allOf f as).map (b :: ·)

/-- `workspace.rs:151-162`: `expect("help should exist")` panics without help. -/
def implDef (W : Wsp) (n : String) : Option Def :=
  match implHelp W n.toList with
  | some (some h) => some ⟨n.toList, .impl, some (addBody (docHeader n.toList .command) h)⟩
  | _ => none

/-- `workspace.rs:142-164` `impls`, for the implementations in this order. -/
def impls (W : Wsp) (xs : List Listing.Item) : Option (List Def) := allOf (implDef W) (dedup (xs.map (·.name)))

/-- `workspace.rs:172-180`. -/
def typeDef (W : Wsp) (x : String × Defs.TyEntry) : Option Def :=
  match tyHelp W x.2 with
  | some (some h) => some ⟨x.1.toList, .type, some (addBody (docHeader x.1.toList .type) h)⟩
  | _ => none

/-- `workspace.rs:166-182` `types`, for the types in this order. -/
def types (W : Wsp) (xs : List (String × Defs.TyEntry)) : Option (List Def) := allOf (typeDef W) xs

/-- `completion.rs:182-199` `spec_literal_completions`. -/
def literals : List Def :=
  [⟨['#', 't'], .lit, some ("`true` boolean value".toList)⟩, ⟨['#', 'f'], .lit, some ("`false` boolean value".toList)⟩,
    ⟨['#', 'i'], .lit, some ("the block's input value".toList)⟩]

/-- What the hash maps give: the implementations and the types in some order. -/
structure Orders where
  impls : List Listing.Item
  types : List (String × Defs.TyEntry)

/-- `completion.rs:124-151` `path_completions`. The directory is looked up outside; `dir` says for a path after the working directory which entries are
listed, those which are directories with `true`. -/
def paths (dir : Text → List (Text × Bool)) (line : Text) : List Def :=
  (dir (LsText.pathComponent line)).map fun x => ⟨x.1, if x.2 then .dir else .file, none⟩

/-- The entries for a kind of item if that is asked for. -/
def when_ (b : Bool) (o : Option (List Def)) : Option (List Def) := if b then o else some []

def pathsIn (dir : Option (Text → List (Text × Bool))) (line : Text) : List Def :=
  match dir with
  | some dir => paths dir line
  | none => []

/-- `completion.rs:101-122` `cmpls`; `none` is a panic. Without a working directory there are no paths. -/
def cmpls (W : Wsp) (o : Orders) (dir : Option (Text → List (Text × Bool))) (line : Text) (its : ParseErr.Items) : Option (List Def) :=
  (when_ its.paths (some (pathsIn dir line))).bind fun a => (when_ its.impls (impls W o.impls)).bind fun b =>
    (when_ its.types (types W o.types)).bind fun c => (when_ its.speclits (some literals)).map fun d => a ++ (b ++ (c ++ d))

def offered (W : Wsp) (o : Orders) (dir : Option (Text → List (Text × Bool))) (line : Text) : Option ParseErr.Items → Option (Option (List Def))
  | none => some none
  | some its => (cmpls W o dir line its).map some

/-- `completion.rs:47-52` `get`. The outer `none` is a panic, the inner one that nothing is offered. -/
def get (k : Parse.Env) (W : Wsp) (o : Orders) (dir : Option (Text → List (Text × Bool))) (line : Text) : Option (Option (List Def)) :=
  (ParseErr.completions k line).bind (offered W o dir line)

/-- `lib.rs:470-478`: those that start with the word, not more than 24. -/
def matching (word : Text) (ds : List Def) : List Def := (ds.filter fun d => word.isPrefixOf d.name).take 24

/-- `lib.rs:453-479` `complete`. -/
def complete (k : Parse.Env) (W : Wsp) (o : Orders) (dir : Text → List (Text × Bool)) (input : Text) (cursor word : Nat) : Option (List Def) :=
  (Shell.sliceBytes input word cursor).bind fun wd => (Shell.takeBytes input cursor).bind fun line =>
    (get k W o (some dir) line).map fun ds => matching wd (ds.getD [])

/-- `completions.rs:46-65` `request`, `completions.rs:223-242` `loop_completer`: what the list below the input shows. At most ten are shown. -/
def listed (k : Parse.Env) (W : Wsp) (o : Orders) (dir : Text → List (Text × Bool)) (input : Text) (cursor : Nat) : Option (List Def) :=
  (complete k W o dir input cursor (Shell.wordStart input cursor)).map (·.take 10)

/-- `hover.rs:31-36`. -/
def nodeHelp (W : Wsp) (t : Text) : Tags.NodeType → Option (Option Text)
  | .command => implHelp W t
  | .type => typeHelp W t
  | _ => some none

def withHelp (header : Text) : Option Text → Text
  | none => header
  | some h => addBody header h

/-- `hover.rs:38-42`. -/
def nodeText (W : Wsp) (code : Text) (n : Tags.Node) : Option Text :=
  (n.tag.str code).bind fun t => (nodeHelp W t n.ty).map (withHelp (docHeader t n.ty))

def atNode (W : Wsp) (code : Text) : Option Tags.Node → Option (Option Text)
  | none => some none
  | some n => (nodeText W code n).map some

/-- `hover.rs:22-48` `get_hover`, for the definition around the cursor and the position in it. The outer `none` is a panic; with a path for
a command it counts as one, wherever the path is. -/
def hover (k : Parse.Env) (W : Wsp) (code : Text) (pos : Nat) : Option (Option Text) :=
  match Tags.parse k code with
  | .ok _ x => if x.usesPath then none else atNode W code (x.nodeAt pos)
  | _ => some none

end Verif.Offer
