import Verif.Model.Py
import Verif.Model.Layout
import Verif.Model.Tracker
import Verif.Model.Stim
import Verif.Model.Circuit
import Verif.Model.Noise
import Verif.Model.NoiseProb
import Verif.Model.Problem
import Verif.Spec.Layout
import Verif.Spec.Pauli
import Verif.Spec.Tracker
import Verif.Spec.Noise
import Verif.Spec.Unrolled
import Verif.Spec.Timeline
import Verif.Spec.Steps
import Verif.Spec.Frame
import Verif.Spec.Parity
import Verif.Props.Layout
import Verif.Props.Tracker
import Verif.Props.Noise
import Verif.Props.NoiseProb
import Verif.Props.Circuit
import Verif.Props.Qubits
import Verif.Props.Frame
import Verif.Model.Decoding
import Verif.Spec.Dem
import Verif.Spec.Decode
import Verif.Props.Decoding
import Verif.Model.Probability
import Verif.Model.ShotData
import Verif.Spec.Probability
import Verif.Props.Probability
import Verif.Props.LeastSquares
import Verif.Model.Csv
import Verif.Model.Collect
import Verif.Spec.Collect
import Verif.Props.Collect
import Verif.Props.Csv
import Verif.Props.ShotData
import Verif.Model.Diagram
import Verif.Spec.Diagram
import Verif.Props.Diagram
import Verif.Model.Lambda
import Verif.Spec.Lambda
import Verif.Props.Lambda
import Verif.Props.Projection
import Verif.Spec.Detectors
import Verif.Lemmas.Detectors
import Verif.Props.Detectors
import Verif.Spec.Faults
import Verif.Props.Distance
import Verif.Props.Damage
import Verif.Props.Attained
import Verif.Model.Script
import Verif.Spec.Script
import Verif.Props.Script
import Verif.Model.Plot
import Verif.Spec.Plot
import Verif.Props.Plot
import Verif.Model.Figures
import Verif.Props.Figures
import Verif.Model.CircuitPlot
import Verif.Props.CircuitPlot
import Verif.Props.ExperimentPlot
import Verif.Props.Charged
import Verif.Props.LambdaFigures
import Verif.Props.Correct
import Verif.Props.Pipeline
import Verif.Props.SurfaceCode
import Verif.Props.EndToEnd
import Verif.Props.Horizontal
import Verif.Props.Symptoms
import Verif.Spec.DoubleEpr
import Verif.Props.DoubleEpr
import Verif.Props.Elementary
import Verif.Props.Decompose
import Verif.Props.Coverage
import Verif.Props.Likelihood
import Verif.Props.Labels
import Verif.Props.Matching
import Verif.Props.Components
import Verif.Props.Glitch
import Verif.Props.Place
import Verif.Props.Syndromes
import Verif.Props.Sampling
import Verif.Props.Threshold
import Verif.Props.MatchingThreshold
import Verif.Props.EdgeChance
import Verif.Props.LowerBound
import Verif.Props.DetectionFraction
import Verif.Props.Confidence
import Verif.Props.Adaptive
import Verif.Props.DetectionData
import Verif.Props.LikelyRates
import Verif.Props.BandWidth
import Verif.Props.FitRanges
import Verif.Props.PlottedRate
import Verif.Props.TrendStability
import Verif.Props.DetectionSpread
import Verif.Props.InternalCommand
