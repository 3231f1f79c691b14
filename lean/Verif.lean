import Verif.Props.LsDoc
import Verif.Props.Batch
import Verif.Props.Shell
import Verif.Props.File
import Verif.Props.Defs
import Verif.Props.Tuple
import Verif.Props.Part
import Verif.Props.TabShape
import Verif.Props.Cmp
import Verif.Props.Blk
import Verif.Props.Infer
import Verif.Props.IoCache
import Verif.Props.Print
import Verif.Props.Locals
import Verif.Props.StepRun
import Verif.Props.TyGraph
import Verif.Props.ExpandArgs
import Verif.Props.Parse
import Verif.Props.Trace
import Verif.Props.LsText
import Verif.Props.Comp
import Verif.Props.Tags
import Verif.Props.Eval
import Verif.Props.Prog
import Verif.Props.ProgNet
import Verif.Props.Notes
import Verif.Props.Progress
import Verif.Props.Cli
import Verif.Props.Lang
import Verif.Props.Help
import Verif.Props.ParseErr
import Verif.Props.Installed
import Verif.Props.Enter
import Verif.Props.Listing
import Verif.Props.Turns
import Verif.Props.Offer
import Verif.Props.OfferText
import Verif.Props.RunLine
import Verif.Props.Tree
import Verif.Props.Typify
import Verif.Props.Names
import Verif.Props.Meaning
import Verif.Props.Inject
import Verif.Props.Wrap
import Verif.Props.Cursor
import Verif.Props.Dir
import Verif.Props.Watch
import Verif.Props.TyErr
import Verif.Props.Msg
import Verif.Props.DepthMsg
import Verif.Props.Advice
import Verif.Props.NotFound
import Verif.Props.Screen
import Verif.Model.SaveFile
import Verif.Props.SaveFile
import Verif.Model.Keys
import Verif.Props.Keys
import Verif.Model.ParSave
import Verif.Props.ParSave
import Verif.Model.SaveOpen
import Verif.Props.SaveOpen
import Verif.Model.SamePath
import Verif.Props.SamePath
import Verif.Model.Server
import Verif.Props.Server
