import Verif.Props.Checkpoint
import Verif.Props.Utils
import Verif.Props.GA
import Verif.Props.Candidates
import Verif.Props.Acquisition
import Verif.Props.Pareto
import Verif.Props.Design
import Verif.Props.Surrogate
import Verif.Props.SurrogateDeriv
import Verif.Props.Median
import Verif.Props.Sop
import Verif.Props.Problems
import Verif.Props.Dycors
import Verif.Props.Random
import Verif.Props.Validate
import Verif.Props.Loop
import Verif.Props.Regular
import Verif.Props.Serial
import Verif.Props.Stop
import Verif.Props.Restarts
import Verif.Props.Hartmann
import Verif.Props.Ready
import Verif.Props.Reproduce
import Verif.Props.OneWorker
import Verif.Props.SopEarly
import Verif.Props.SopSerial
import Verif.Props.SopLoop
import Verif.Props.Incremental
import Verif.Props.Recover
import Verif.Props.Create
import Verif.Props.NonFinite
import Verif.Props.Args
import Verif.Props.StepPF
import Verif.Props.EINaN
import Verif.Props.Float
import Verif.Props.GAFloat
import Verif.Props.AcqFloat
import Verif.Props.Units
import Verif.Props.Variables
import Verif.Props.Origin
import Verif.Props.Result
import Verif.Props.BatchSize
import Verif.Props.Overwrite
import Verif.Props.Plot
import Verif.Props.Poly
import Verif.Props.PolyDegree
import Verif.Props.Mars
import Verif.Props.GP
import Verif.Props.SopOrder
import Verif.Props.Exact
import Verif.Props.SopLoss
import Verif.Props.SopUnits
import Verif.Props.SopPoint
import Verif.Props.SopArgs
import Verif.Props.Trace
import Verif.Props.Arrived
import Verif.Props.GiveUp
import Verif.Props.GPOrder
import Verif.Props.WholeGP
import Verif.Props.SopWhole
import Verif.Props.Budget
import Verif.Props.Order
import Verif.Props.Ties
import Verif.Props.TooFew
import Verif.Props.DesignAll
import Verif.Props.DesignLaw
import Verif.Props.Apart
import Verif.Props.Logging
import Verif.Props.Renumber
import Verif.Props.Global
import Verif.Props.Laws
import Verif.Props.SopGlobal
import Verif.Props.Repeat
import Verif.Props.Unique
import Verif.Props.OneStep
import Verif.Props.Enough
import Verif.Props.StepFloat
import Verif.Props.MeritFloat
import Verif.Props.Uniform
import Verif.Props.Batches
import Verif.Props.SopSync
import Verif.Props.SopTies
import Verif.Props.Interrupted
import Verif.Props.SopRenumber
import Verif.Props.SopMirror
import Verif.Props.SopMirrorDesign
import Verif.Props.SopRenumberDemo
import Verif.Units.Mirror
import Verif.Units.MirrorLoop
import Verif.Props.Orientation
import Verif.Sop.Stuck
import Verif.Props.SopResume
import Verif.Props.Killed
