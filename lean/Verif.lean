import Verif.Model.MagFull
import Verif.Props.Spin
import Verif.Instances.XF
import Verif.Props.Energy
import Verif.Props.Dynamics
import Verif.Props.Metropolis
import Verif.Props.Init
import Verif.Props.Log
import Verif.Props.Langevin
import Verif.Props.Obs
import Verif.Props.Runs
import Verif.Props.Binary64
import Verif.Props.Sites
import Verif.Props.RunModes
import Verif.Props.RunLangevin
import Verif.Props.DynProfile
import Verif.Props.Trajectories
import Verif.Props.Histogram
import Verif.Props.Split
import Verif.Props.Background
import Verif.Props.Profile
import Verif.Props.Averages
import Verif.Props.MonteCarlo
import Verif.Props.Samples
import Verif.Props.ConfigFile
import Verif.Props.Main
import Verif.Props.Overrides
import Verif.Props.LogFiles
import Verif.Props.NaN
import Verif.Props.Rounding
import Verif.Props.Work
import Verif.Props.Symmetry
import Verif.Lemmas.Order
import Verif.Lemmas.Order2
import Verif.Lemmas.Order3
import Verif.Lemmas.Motion
import Verif.Lemmas.InitLaw
import Verif.Props.Order
import Verif.Props.Bounds
import Verif.Lemmas.Markov
import Verif.Spec.Markov
import Verif.Lemmas.Sampling
import Verif.Props.Markov
import Verif.Lemmas.Uniform
import Verif.Lemmas.Liouville
import Verif.Props.Liouville
import Verif.Props.InitLaw
import Verif.Props.ConfigAccept
import Verif.Props.FitRows
import Verif.Props.Ergodic
import Verif.Props.Thermal
import Verif.Props.Search
import Verif.Props.Forward
import Verif.Props.Thermostat
import Verif.Props.LongRun
import Verif.Props.Recurrence
import Verif.Props.Bench
import Verif.Props.Boundary
import Verif.Props.Exact
import Verif.Props.ZeroPeriod
import Verif.Props.ForwardEnergy
import Verif.Props.ForwardMetro
import Verif.Lemmas.Doeblin
import Verif.Lemmas.Dirichlet
import Verif.Lemmas.Stationary
import Verif.Spec.Stationary
import Verif.Props.Stationary
import Verif.Props.NotBoltzmann
import Verif.Model.Text
import Verif.Spec.Text
import Verif.Lemmas.Text
import Verif.Props.Text
import Verif.Props.Magnetisation
import Verif.Props.ThermalSymmetry
import Verif.Props.Disorder
import Verif.Props.DriveDoc
import Verif.Model.Outputs
import Verif.Props.Outputs
import Verif.Props.Irrelevant
import Verif.Lemmas.RingEnergy
import Verif.Props.RingEnergy
import Verif.Props.SolveBeta
import Verif.Props.RotatingFrame
import Verif.Lemmas.FitRow
import Verif.Props.FitEnsemble
import Verif.Lemmas.HistSearch
import Verif.Lemmas.HistField
import Verif.Props.HistEnsemble
import Verif.Spec.FastDrive
import Verif.Lemmas.Averaging
import Verif.Lemmas.FastDrive
import Verif.Props.FastDrive
import Verif.Props.MagnusEnergy
import Verif.Lemmas.SecondLaw
import Verif.Props.SecondLaw
import Verif.Spec.LightCone
import Verif.Lemmas.LightCone
import Verif.Props.LightCone
import Verif.Props.Heating
import Verif.Spec.Response
import Verif.Lemmas.Response
import Verif.Props.Response
import Verif.Spec.Cluster
import Verif.Lemmas.Cluster
import Verif.Props.Cluster
import Verif.Lemmas.ClusterBath
import Verif.Props.ClusterBath
import Verif.Props.ClusterMotion
import Verif.Spec.Gap
import Verif.Lemmas.Gap
import Verif.Lemmas.GapRing
import Verif.Lemmas.GapMetro
import Verif.Props.Gap
import Verif.Spec.GapMean
import Verif.Lemmas.GapMean
import Verif.Props.GapMean
import Verif.Lemmas.Adaptive
import Verif.Props.Adaptive
import Verif.Spec.HeatCap
import Verif.Lemmas.HeatCap
import Verif.Props.HeatCap
import Verif.Spec.Frames
import Verif.Lemmas.Frames
import Verif.Props.Frames
import Verif.Spec.Quench
import Verif.Lemmas.Quench
import Verif.Props.Quench
import Verif.Spec.SelfAvg
import Verif.Lemmas.SelfAvg
import Verif.Props.SelfAvg
import Verif.Spec.McRun
import Verif.Props.McRun
import Verif.Spec.RunMean
import Verif.Lemmas.RunMean
import Verif.Props.RunMean
import Verif.Spec.HistMean
import Verif.Props.HistMean
import Verif.Spec.TrajMean
import Verif.Props.TrajMean
import Verif.Props.Correlation
import Verif.Spec.ResponseMean
import Verif.Props.ResponseMean
import Verif.Props.Defaults
