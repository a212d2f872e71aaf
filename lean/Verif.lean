import Verif.Props.Queue
import Verif.Props.Parser
import Verif.Props.Content
import Verif.Props.Reader
import Verif.Props.Misc
import Verif.Props.Complete
import Verif.Props.Scanner
import Verif.Props.Nesting
import Verif.Props.Position
import Verif.Props.Keys
import Verif.Props.Scalars
import Verif.Props.Plain
import Verif.Props.Blocks
import Verif.Props.Chunks
import Verif.Props.Lazy
import Verif.Props.Places
import Verif.Props.Reading
import Verif.Props.Events
import Verif.Props.Sound
import Verif.Props.Signs
import Verif.Props.BlockForm
import Verif.Props.Faults
import Verif.Props.ParseFaults
import Verif.Props.Debug
import Verif.Props.Panics
import Verif.Check.Scanner
import Verif.Check.Scalars
import Verif.Check.Parser
import Verif.Props.Cow
import Verif.Props.Wide
import Verif.Check.Parts
import Verif.Props.Checked
import Verif.Props.Heap
import Verif.Props.Errors
import Verif.Props.Asked
import Verif.Props.Final
import Verif.Props.Shown
import Verif.Props.Undefined
import Verif.Props.Again
import Verif.Props.Moved
import Verif.Props.Afresh
import Verif.Props.LazyEvents
import Verif.Props.LazyReading
import Verif.Props.AgainDoc
import Verif.Props.Broken
import Verif.Props.Blank
import Verif.Props.Same
import Verif.Props.Returns
import Verif.Props.ReturnsRead
import Verif.Props.Quiet
