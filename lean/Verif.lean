import Verif.Py.Basic
import Verif.DomainUtils
import Verif.NdArray
import Verif.Spec.Sum
import Verif.Sem
import Verif.Store.Numpy
import Verif.Store.NumpyLemmas
import Verif.Store.Flat
import Verif.Store.FlatLemmas
import Verif.Store.Tree
import Verif.Store.TreeLemmas
import Verif.Store.TreeLemmas2
import Verif.Store.Class
import Verif.Py.Fl
import Verif.Factor.Basic
import Verif.Factor.Lemmas
import Verif.Factor.Api
import Verif.Store.NumpyList
import Verif.Store.NumpyLists
import Verif.Store.NumpyPlace
import Verif.Props.Factors
import Verif.Props.Factors2
import Verif.Props.Factors3
import Verif.Props.Lists
import Verif.Props.Place
import Verif.Factor.Deterministic
import Verif.Factor.Canonical
import Verif.Props.Deterministic
import Verif.Graph.Basic
import Verif.Graph.Lemmas
import Verif.Graph.Ordering
import Verif.Graph.OrderingLemmas
import Verif.Spec.BN
import Verif.Spec.Graph
import Verif.Spec.Elim
import Verif.Net.Sums
import Verif.Net.Prune
import Verif.Net.Clamp
import Verif.Net.DSep
import Verif.Factor.Rep
import Verif.Inference.Elim
import Verif.Inference.ElimLemmas
import Verif.Model.Basic
import Verif.Inference.VE
import Verif.Model.Represents
import Verif.Model.Lemmas
import Verif.Model.Denote
import Verif.Inference.VELemmas
import Verif.Model.Build
import Verif.Props.ExNet
import Verif.Props.Gradient
import Verif.Props.GradientEx
import Verif.Props.Graph
import Verif.Inference.QueryLemmas
import Verif.Props.Inference
import Verif.Model.SCM
import Verif.Inference.Causal
import Verif.Spec.Causal
import Verif.Model.SetAll
import Verif.Model.SCMLemmas
import Verif.Model.Intervene
import Verif.Model.Relabel
import Verif.Net.Solution
import Verif.Net.Glue
import Verif.Net.Twin
import Verif.Model.Fusion
import Verif.Props.ExScm
import Verif.Props.Models
import Verif.Py.Names
import Verif.Net.Worlds
import Verif.Model.Twin
import Verif.Inference.CausalLemmas
import Verif.Inference.CfLemmas
import Verif.Net.CfProb
import Verif.Props.Causal
import Verif.Props.CausalEx
import Verif.Util.Text
import Verif.Util.Misc
import Verif.Util.Normalize
import Verif.Util.NormalizeLemmas
import Verif.Props.Util
import Verif.Props.Exact
import Verif.Props.Normalize
import Verif.Model.Sampling
import Verif.Model.SamplingLemmas
import Verif.Props.Networks
import Verif.Model.Components
import Verif.Props.Components
import Verif.Factor.Interval
import Verif.Props.Interval
import Verif.Learn.Multi
import Verif.Props.Multi
import Verif.Learn.Data
import Verif.Learn.DataLemmas
import Verif.Props.Data
import Verif.Learn.Iterative
import Verif.Props.Iterative
import Verif.Spec.Learning
import Verif.Learn.EM
import Verif.Learn.EMLemmas
import Verif.Learn.EMData
import Verif.Props.Learning
import Verif.Props.LearningEx
import Verif.Net.Gibbs
import Verif.Net.EMFixed
import Verif.Learn.EMLik
import Verif.Props.Likelihood
import Verif.Props.Separation
import Verif.Props.Reading
import Verif.IO.Uai
import Verif.IO.UaiLex
import Verif.IO.UaiRead
import Verif.IO.UaiNet
import Verif.Props.Uai
import Verif.IO.UaiText
import Verif.IO.UaiScm
import Verif.IO.UaiScmLemmas
import Verif.Props.UaiScm
import Verif.IO.Files
import Verif.Props.Files
import Verif.Model.Submodel
import Verif.Props.Submodel
import Verif.Conv.Pgmpy
import Verif.Props.Pgmpy
import Verif.Store.BTree
import Verif.Store.BTreeLemmas
import Verif.Props.BTree
import Verif.Store.Heap
import Verif.Store.HeapLemmas
import Verif.Store.HeapRun
import Verif.Props.Sharing
import Verif.Model.QNet
import Verif.Model.QNetLemmas
import Verif.Net.Frequencies
import Verif.Props.QLikelihood
import Verif.Props.QLikelihoodEx
import Verif.Net.Tian
import Verif.Props.Tian
import Verif.Factor.Operators
import Verif.Props.Operators
import Verif.Model.Random
import Verif.Props.Random
import Verif.Learn.EMScm
import Verif.Inference.MultiCausal
import Verif.Learn.EMScmLemmas
import Verif.Props.Emcc
import Verif.Props.EmccEx
import Verif.Props.MultiCausal
import Verif.Props.MultiCausalEx
import Verif.Learn.Gdcc
import Verif.Props.Gdcc
import Verif.Props.GdccMulti
import Verif.Props.GdccEx
import Verif.Net.Adjust
import Verif.Net.Bounds
import Verif.Props.Adjust
import Verif.Props.AdjustEx
import Verif.Factor.Frame
import Verif.Props.Frame
import Verif.Net.Empirical
import Verif.Props.Identified
import Verif.Props.IdentifiedEx
import Verif.Props.Bounds
import Verif.Inference.CfRefused
import Verif.Props.CfRefused
import Verif.Props.FrontDoor
import Verif.Props.FrontDoorEx
import Verif.Model.BuildNet
import Verif.Props.BuildNet
import Verif.Props.SamplingDist
import Verif.Model.Convert
import Verif.Props.Convert
import Verif.Model.SampleCols
import Verif.Props.SampleCols
import Verif.Learn.EMRefused
import Verif.Props.EMComplete
import Verif.Net.Chebyshev
import Verif.Props.Consistent
import Verif.Props.EMFixed
import Verif.Net.Circuit
import Verif.Net.Complete
import Verif.Props.Complete
import Verif.Net.Push
import Verif.Net.Rich
import Verif.Props.Canonical
import Verif.Props.CanonicalEx
import Verif.Net.Response
import Verif.Props.Attained
import Verif.Props.AttainedEx
import Verif.Net.Effect
import Verif.Net.Chain
import Verif.Net.Bow
import Verif.Props.Effect
import Verif.Props.Undetermined
import Verif.Props.EffectEx
import Verif.Net.Renamed
import Verif.Props.Renamed
import Verif.Util.Domains
import Verif.Props.Domains
import Verif.Net.Sharp
import Verif.Props.Sharp
import Verif.Model.Kinds
import Verif.Props.Kinds
import Verif.Util.Numeric
import Verif.Props.Numeric
import Verif.Model.Objects
import Verif.Model.ObjectsLemmas
import Verif.Props.Objects
import Verif.Model.Mixed
import Verif.Model.MixedLemmas
import Verif.Model.MixedQuery
import Verif.Props.Mixed
import Verif.Inference.Coherent
import Verif.Props.Coherent
import Verif.Factor.Print
import Verif.Factor.PrintLemmas
import Verif.Props.Print
import Verif.Props.Wider
import Verif.Inference.Potential
import Verif.Props.Potential
import Verif.Factor.Operands
import Verif.Props.Operands
import Verif.Inference.Arguments
import Verif.Props.Arguments
import Verif.Props.ExactExport
import Verif.Props.ExactCounts
import Verif.Props.ExactDecomp
import Verif.Props.ExactDomains
import Verif.Props.ExactStates
import Verif.Props.ExactRefusals
import Verif.Props.ExactConditional
import Verif.Props.ExactPairing
import Verif.Props.ExactFrame
import Verif.Props.ExactExpectation
import Verif.Props.ExactPath
import Verif.Props.ExactThreads
import Verif.Util.Watch
import Verif.Util.Plot
import Verif.Model.Draw
import Verif.Props.Watch
import Verif.Props.Colours
import Verif.Props.Drawing
