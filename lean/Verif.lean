import Verif.Props.Constraint
import Verif.Props.Zone
import Verif.Props.ZoneUpdates
import Verif.Props.TimedWord
import Verif.Props.TA
import Verif.Props.Urgent
import Verif.Props.Product
import Verif.Props.ZoneAutomaton
import Verif.Props.Oracle
import Verif.Props.SimplifyZones
import Verif.Props.ElementaryLanguage
import Verif.Props.Symbolic
import Verif.Props.Juxtaposed
import Verif.Props.Renaming
import Verif.Props.FindRenaming
import Verif.Props.SplitStates
import Verif.Props.ObservationTable
import Verif.Props.Counterexample
import Verif.Props.Termination
import Verif.Props.Hypothesis
import Verif.Props.Learner
import Verif.Props.Backward
import Verif.Props.Reconstruct
import Verif.Props.SampleComplete
import Verif.Props.Merge
import Verif.Props.Neighbor
import Verif.Props.ApplyResets
import Verif.Props.Imprecise
import Verif.Props.Double
import Verif.Props.Experiment
import Verif.Props.OtaJson
import Verif.Props.Condition
import Verif.Props.ConjunctiveConstraint
import Verif.Props.Fixtures
import Verif.Props.Protocols
import Verif.Props.Print
import Verif.Props.MergeAdjacent
import Verif.Props.Inactive
import Verif.Props.Suffix
import Verif.Props.ZonePower
import Verif.Props.Relax
