import Verif.Model.Tags
/-! What the tags of parsed input say: the text that stands at each of them. -/
namespace Verif.Tags
open Verif.Nom Verif.File
open Verif.Parse (Env Str)

/-- The texts of a list of parts, if all of them have one. -/
def allO {α β : Type} (f : β → Option α) : List β → Option (List α)
  | [] => some []
  | b :: bs => (f b).bind fun a => (allO f bs).map (a :: ·)

def textO (w : Str) : Option Span → Option (Option Str)
  | none => some none
  | some t => (t.str w).map some

def LOp.text (w : Str) : LOp → Option Parse.Op
  | .single t => (t.str w).map .single
  | .path rooted cs => (allO (·.str w) cs).map (.path rooted)

mutual
/-- The expression which is written in the line where the tags say. Every tag has to be a slice of the line, those of
special literals and dots the right ones. -/
def LExpr.text (w : Str) : LExpr → Option Parse.Expr
  | .mk t bs out => (t.str w).bind fun _ => (textBs w bs).bind fun bs => (textO w out).map fun o => .mk bs o
def textBs (w : Str) : List LBlk → Option (List Parse.Blk)
  | [] => some []
  | b :: bs => (b.text w).bind fun a => (textBs w bs).map (a :: ·)
def LBlk.text (w : Str) : LBlk → Option Parse.Blk
  | .mk inTy o outTy ts =>
    (textO w inTy).bind fun x => (o.text w).bind fun y => (textO w outTy).bind fun z =>
      (textTs w ts).map fun ts => .mk x y z ts
def textTs (w : Str) : List LTerm → Option (List Parse.Term)
  | [] => some []
  | b :: bs => (b.text w).bind fun a => (textTs w bs).map (a :: ·)
def LTerm.text (w : Str) : LTerm → Option Parse.Term
  | .flag t => (t.str w).map .flag
  | .arg a => (a.text w).map .arg
def LArg.text (w : Str) : LArg → Option Parse.Arg
  | .ident t => (t.str w).map .ident
  | .num t => (t.str w).map .num
  | .pound c t => if t.str w = some ['#', c] then some (.pound c) else none
  | .var t => (t.str w).map .var
  | .expr e => (e.text w).map .expr
  | .dot t op lhs rhs out =>
    if op.str w = some ['.'] then
      (t.str w).bind fun _ => (lhs.text w).bind fun l => (rhs.str w).bind fun r => (textO w out).map fun o => .dot l r o
    else none
end

def LParam.text (w : Str) (p : LParam) : Option Parse.Param :=
  (p.name.str w).bind fun n => (textO w p.ty).map fun t => ⟨n, t⟩

def LDefImpl.text (w : Str) (d : LDefImpl) : Option Parse.DefImpl :=
  (d.name.str w).bind fun n => (textO w d.inTy).bind fun t => (allO (LParam.text w) d.params).bind fun ps =>
    (d.body.text w).map fun e => ⟨n, t, ps, e⟩

def LField.text (w : Str) (f : LField) : Option Parse.Field :=
  (f.name.str w).bind fun n => (f.ty.str w).bind fun t => (allO (·.str w) f.params).map fun ps => ⟨n, t, ps⟩

def fieldsText (w : Str) : Option (List LField) → Option (Option (List Parse.Field))
  | none => some none
  | some fs => (allO (LField.text w) fs).map some

def variantText (w : Str) (v : Span × Option (List LField)) : Option (Str × Option (List Parse.Field)) :=
  (v.1.str w).bind fun n => (fieldsText w v.2).map fun fs => (n, fs)

def LTyBody.text (w : Str) : LTyBody → Option Parse.TyBody
  | .sum vs => (allO (variantText w) vs).map .sum
  | .product fs => (allO (LField.text w) fs).map .product

def LDefTy.text (w : Str) (d : LDefTy) : Option Parse.DefTy :=
  (d.name.str w).bind fun n => (d.body.text w).map fun b => ⟨n, b⟩

/-- What is written in the line where the tags say. -/
def LParsed.text (w : Str) : LParsed → Option Parse.Parsed
  | .impl d => (d.text w).map .impl
  | .ty d => (d.text w).map .ty
  | .expr e => (e.text w).map .expr

/-- The tag of a term: that of its argument. -/
def LTerm.tag : LTerm → Span
  | .flag t => t
  | .arg a => a.tag

/-- The tags are tags of parts of what has the first tag: they are inside it, one after the other. -/
def Parts (t : Span) (ss : List Span) : Prop :=
  (∀ s ∈ ss, t.start ≤ s.start ∧ s.start ≤ s.stop ∧ s.stop ≤ t.stop) ∧ ss.Pairwise fun a b => a.stop ≤ b.start

mutual
/-- The tags of the parts of an expression, and of their parts, are those of parts. -/
def LExpr.Nested : LExpr → Prop
  | .mk t bs out => Parts t (bs.map LBlk.tag ++ out.toList) ∧ NestedBs bs
def NestedBs : List LBlk → Prop
  | [] => True
  | b :: bs => b.Nested ∧ NestedBs bs
def LBlk.Nested : LBlk → Prop
  | .mk a o c ts => Parts (LBlk.mk a o c ts).tag (a.toList ++ o.tag :: (c.toList ++ ts.map LTerm.tag)) ∧ NestedTs ts
def NestedTs : List LTerm → Prop
  | [] => True
  | t :: ts => t.Nested ∧ NestedTs ts
def LTerm.Nested : LTerm → Prop
  | .flag _ => True
  | .arg a => a.Nested
def LArg.Nested : LArg → Prop
  | .expr e => e.Nested
  | .dot t op lhs rhs out => Parts t (lhs.tag :: op :: rhs :: out.toList) ∧ lhs.Nested
  | _ => True
end

/-- That of the parsed input. -/
def LParsed.Nested : LParsed → Prop
  | .impl d => d.body.Nested
  | .ty _ => True
  | .expr e => e.Nested

/-- The parts stand one after the other, none inside another. -/
def InOrder (ns : List Node) : Prop := ns.Pairwise fun a b => a.tag.stop ≤ b.tag.start ∧ a.tag.start < b.tag.start

/-- How a part with this text can be written in the line. -/
def written : NodeType → Str → List Str
  | .var, t => ['$' :: t]
  | .flag, t => ['-' :: '-' :: t, '-' :: '-' :: '"' :: (t ++ ['"']), '-' :: '-' :: '\'' :: (t ++ ['\''])]
  | _, t => [t]

mutual
/-- The words of an expression as they are written, each with its kind. Types after a colon are not words of their own. -/
def wordsE : Parse.Expr → List (NodeType × Str)
  | .mk bs _ => wordsBs bs
def wordsBs : List Parse.Blk → List (NodeType × Str)
  | [] => []
  | b :: bs => wordsB b ++ wordsBs bs
def wordsB : Parse.Blk → List (NodeType × Str)
  | .mk _ (.single t) _ ts => (.command, t) :: wordsTs ts
  | .mk _ (.path _ cs) _ ts => cs.map (fun t => (.command, t)) ++ wordsTs ts
def wordsTs : List Parse.Term → List (NodeType × Str)
  | [] => []
  | t :: ts => wordsT t ++ wordsTs ts
def wordsT : Parse.Term → List (NodeType × Str)
  | .flag t => [(.flag, t)]
  | .arg a => wordsA a
def wordsA : Parse.Arg → List (NodeType × Str)
  | .ident t => [(.ident, t)]
  | .num t => [(.num, t)]
  | .pound c => [(.pound, ['#', c])]
  | .var t => [(.var, t)]
  | .expr e => wordsE e
  | .dot l r _ => wordsA l ++ [(.command, ['.']), (.ident, r)]
end

def wordsF (f : Parse.Field) : List (NodeType × Str) := (.field, f.name) :: (.type, f.ty) :: f.params.map fun t => (.tyParameter, t)

def wordsV : Str × Option (List Parse.Field) → List (NodeType × Str)
  | (n, none) => [(.variant, n)]
  | (n, some fs) => (.variant, n) :: fs.flatMap wordsF

/-- The words of parsed input. The types of parameters are not among them. -/
def words : Parse.Parsed → List (NodeType × Str)
  | .impl d =>
    (.command, ['d', 'e', 'f']) :: (.command, d.name) :: (d.inTy.toList.map (fun t => (.type, t)) ++
      (d.params.map (fun p => (.parameter, p.name)) ++ wordsE d.body))
  | .ty ⟨n, .sum vs⟩ => (.command, ['d', 'e', 'f', '-', 't', 'y']) :: (.type, n) :: vs.flatMap wordsV
  | .ty ⟨n, .product fs⟩ => (.command, ['d', 'e', 'f', '-', 't', 'y']) :: (.type, n) :: fs.flatMap wordsF
  | .expr e => wordsE e

/-- The text of a shown line. -/
def shown (ps : List Piece) : Str := ps.flatMap (·.text)

end Verif.Tags
