import Verif.Context
import Lean.Elab.Command
import Lean.ToExpr
import Lean.Elab.Deriving.ToExpr

/-!
# States as literals

`states w n "c1", "c2"` defines `w1`, `w2`, the literal states that the model reaches from a new context by
`c1` and by `c1`, `c2`, with fuel `n`. `labelled% n "c1", "c2"` and `new% n "c1", "c2"` stand for the literal state that the model reaches by
the commands `c1`, `c2`, from the labelled store and from a new context, with fuel `n`. They only save
typing: what is claimed about such a state is stated in a theorem and checked by the kernel from the
literal.
-/

namespace Zia

open Lean Elab

open Insertion

deriving instance ToExpr for CId
deriving instance ToExpr for CCT
deriving instance ToExpr for LeafChar
deriving instance ToExpr for MComp
deriving instance ToExpr for Specific
deriving instance ToExpr for Concept
deriving instance ToExpr for VChange
deriving instance ToExpr for CompPair
deriving instance ToExpr for Indirect
deriving instance ToExpr for NewDelta
deriving instance ToExpr for Direct
deriving instance ToExpr for CDelta
deriving instance ToExpr for Delta
deriving instance ToExpr for Nested
deriving instance ToExpr for SLeaf
deriving instance ToExpr for Key
deriving instance ToExpr for Syn
deriving instance ToExpr for Reason, CmpReason, OReason, Parts
deriving instance ToExpr for Frame
deriving instance ToExpr for Cache
deriving instance ToExpr for Snap
deriving instance ToExpr for Ctx

/-- The states after some commands. -/
def after (n : Nat) (start : Except Fault Ctx) (cmds : List String) : Except Fault Ctx := do
  let mut c ← start
  for s in cmds do
    (_, c) ← Context.execute n c s.toList
  return c

/-- The literal for a computed state. -/
def literal (c : Except Fault Ctx) : TermElabM Expr :=
  match c with
  | .ok c => return toExpr c
  | .error f => throwError "{repr f}"

elab "labelled% " n:num ss:str,* : term =>
  literal (after n.getNat Context.labelled (ss.getElems.toList.map (·.getString)))

elab "new% " n:num ss:str,* : term =>
  literal (after n.getNat (Context.new n.getNat) (ss.getElems.toList.map (·.getString)))

/-- The state before the first commit. -/
elab "labelling% " : term =>
  literal (do
    let (_, c) ← Context.labelConcrete.run Context.blank
    return c)

/-- Define the state after each of some commands. -/
elab "states " p:ident n:num ss:str,* : command => Command.liftTermElabM do
  let mut c := Context.new n.getNat
  let mut i := 1
  for s in ss.getElems.toList do
    c := after n.getNat c [s.getString]
    let name := (← getCurrNamespace) ++ p.getId.appendAfter (toString i)
    addDecl (.defnDecl {
      name, levelParams := [], type := mkConst ``Ctx, value := ← literal c, hints := .abbrev,
      safety := .safe })
    i := i + 1

end Zia
