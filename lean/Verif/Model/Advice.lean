import Verif.Model.Parse
/-! Model of the advice to annotate types, which messages about failed inference give
(`ogma/src/eng/comp/infer.rs:325-375`). -/
namespace Verif.Advice
open Verif.Parse

/-- `infer.rs:366-372`: what is said about an expression with this text whose input type is not known, with a type in the
place of `<type>`. -/
def inputAdvice (ty text : Str) : Str :=
  match text with
  | '{' :: s => '{' :: ':' :: ty ++ ' ' :: s
  | t => '{' :: ':' :: ty ++ ' ' :: t ++ [' ', '}']

/-- `infer.rs:328-335`: what is said about a command whose output type is not known, with a type in the place of `<type>`
and without the dots: the text of the operator, or of the whole block for a dot. -/
def outputAdvice (ty op blk : Str) : Str :=
  if op = ['.'] then blk ++ ':' :: ty else op ++ ':' :: ty

end Verif.Advice
