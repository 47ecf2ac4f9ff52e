import Verif.Model.Parser
import Verif.Props.Names
import Verif.Props.Zone
import Verif.Props.Checks
import Verif.Props.Paths
import Verif.Props.Resolve
import Verif.Props.Labels
import Verif.Props.Members
import Verif.Props.Structural
import Verif.Props.Concurrency
import Verif.Props.Driver
import Verif.Props.Lexer
import Verif.Props.Loader
import Verif.Props.InZone
import Verif.Props.Case
import Verif.Props.Verdict
import Verif.Props.Outcome
import Verif.Props.Producers
import Verif.Props.Main
import Verif.Props.Json
import Verif.Props.Text
import Verif.Props.Input
import Verif.Props.Run
import Verif.Props.File
import Verif.Props.Final
import Verif.Props.Delegation
import Verif.Props.Watched
import Verif.Props.Dname
import Verif.Props.Numbers
import Verif.Props.Program
import Verif.Props.Inhabited
import Verif.Props.Redirect
import Verif.Props.Whole
import Verif.Props.Threaded
import Verif.Props.StructuralRun
import Verif.Props.Stats
import Verif.Props.Asked
import Verif.Props.Default
import Verif.Props.Summary
import Verif.Props.Process
import Verif.Props.Order
import Verif.Props.Exact
import Verif.Props.Abort
