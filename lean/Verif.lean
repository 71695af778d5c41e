import Verif.Basic
import Verif.Lexer
import Verif.Props.Lex
import Verif.Nest
import Verif.Props.Nest
import Verif.Syntax
import Verif.Props.Syntax
import Verif.Concept
import Verif.Delta
import Verif.SnapShot
import Verif.Reader
import Verif.Reason
import Verif.Search
import Verif.Updater
import Verif.Parser
import Verif.Context
import Verif.Conformance
import Verif.Spec.Store
import Verif.Lemmas.Trace
import Verif.Lemmas.Comps
import Verif.Lemmas.Run
import Verif.Boot
import Verif.Spec.History
import Verif.Lemmas.Reach
import Verif.Lemmas.Acyclic
import Verif.Lemmas.Reds
import Verif.Lemmas.Invariant
import Verif.Boot0
import Verif.Literal
import Verif.Lemmas.Check
import Verif.Lemmas.Rest
import Verif.Lemmas.Concrete
import Verif.Lemmas.Layers
import Verif.Lemmas.Fits
import Verif.Spec.Delta
import Verif.Witness.Reductions
import Verif.Witness.Compositions
import Verif.Witness.Crash
import Verif.Props.Spacing
import Verif.Props.Store
import Verif.Props.Delta
import Verif.Witness.Reachable
import Verif.Spec.Parse
import Verif.Lemmas.SM
import Verif.Lemmas.Parse
import Verif.Lemmas.Ranked
import Verif.Witness.Parse
import Verif.Props.Parse
import Verif.Lemmas.Fuel
import Verif.Spec.Search
import Verif.Lemmas.Frames
import Verif.Lemmas.Brackets
import Verif.Lemmas.Chain
import Verif.Lemmas.Match
import Verif.Lemmas.Compare
import Verif.Witness.Search
import Verif.Props.Search
import Verif.Spec.Variables
import Verif.Lemmas.Variables
import Verif.Lemmas.Related
import Verif.Lemmas.Remember
import Verif.Lemmas.Remembered
import Verif.Lemmas.HashOrder
import Verif.Witness.Order
import Verif.Witness.Wonder
import Verif.Props.Order
import Verif.Props.Context
import Verif.World
import Verif.Witness.Cache
import Verif.Props.Apart
import Verif.Props.Arrange
import Verif.Props.Clones
import Verif.Props.Cache
import Verif.Props.Again
import Verif.Props.Answer
import Verif.Spec.Print
import Verif.Lemmas.Print
import Verif.Witness.Print
import Verif.Props.Print
import Verif.Spec.Labels
import Verif.Lemmas.Labels
import Verif.Lemmas.Naming
import Verif.Lemmas.Rename
import Verif.Lemmas.Strings
import Verif.Witness.Labels
import Verif.Props.Labels
import Verif.Tutorials
import Verif.TutorialTests
import Verif.Page
import Verif.Spec.Page
import Verif.Lemmas.Page
import Verif.Witness.Page
import Verif.Props.Page
import Verif.Props.PageCrash
import Verif.Spec.Words
import Verif.Lemmas.Words
import Verif.Lemmas.WordsData
import Verif.Lemmas.WordsStore
import Verif.Lemmas.WordsRead
import Verif.Lemmas.WordsReason
import Verif.Lemmas.WordsSearch
import Verif.Lemmas.WordsUpdate
import Verif.Lemmas.WordsParse
import Verif.Lemmas.WordsContext
import Verif.Lemmas.WordsNames
import Verif.Lemmas.WordsNew
import Verif.Witness.Words
import Verif.Props.Words
import Verif.Spec.Teach
import Verif.Lemmas.Quiet
import Verif.Lemmas.Teach
import Verif.Props.Teach
import Verif.Lemmas.Trees
import Verif.Lemmas.Learn
import Verif.Lemmas.LearnParse
import Verif.Lemmas.LearnStore
import Verif.Lemmas.LearnNew
import Verif.Witness.Learn
import Verif.Props.Learn
import Verif.Lemmas.Forget
import Verif.Witness.Forget
import Verif.Props.Forget
import Verif.Spec.Query
import Verif.Lemmas.Stand
import Verif.Lemmas.Inferred
import Verif.Lemmas.Unruled
import Verif.Lemmas.Query
import Verif.Lemmas.Lost
import Verif.Lemmas.Retold
import Verif.Lemmas.Wonder
import Verif.Lemmas.WonderCall
import Verif.Lemmas.Couple
import Verif.Lemmas.CoupleRead
import Verif.Lemmas.Arrange
import Verif.Lemmas.Arrowed
import Verif.Props.Query
import Verif.Lemmas.Told
import Verif.Props.Told
import Verif.Spec.Accepted
import Verif.Lemmas.Said
import Verif.Lemmas.Accepted
import Verif.Lemmas.Asserted
import Verif.Props.Accepted
import Verif.Spec.Session
import Verif.Props.Session
import Verif.Props.Wonder
import Verif.Lemmas.Grown
import Verif.Lemmas.Introduced
import Verif.Lemmas.PendingStand
import Verif.Lemmas.Pieces
import Verif.Lemmas.PendingParse
import Verif.Lemmas.PendingCommit
import Verif.Lemmas.Speech
import Verif.Lemmas.SpeechRead
import Verif.Lemmas.Talk
import Verif.Props.Remembered
import Verif.Spec.Nature
import Verif.Lemmas.Nature
import Verif.Props.Lasting
import Verif.Lemmas.Infix
import Verif.Lemmas.InfixTell
import Verif.Lemmas.InfixAsk
