import Verif.Props.Simplify
import Verif.Props.Sem
import Verif.Props.Ops
import Verif.Props.Util
import Verif.Props.Expand
import Verif.Props.Search
import Verif.Props.SearchHeap
import Verif.Props.Numeric
import Verif.Props.Periodic
import Verif.Props.Cov
import Verif.Props.Misc
import Verif.Props.GPModel
import Verif.Props.Intervals
import Verif.Props.Mixed
import Verif.Props.MixedText
import Verif.Props.Sops
import Verif.Props.Interp
import Verif.Props.Links
import Verif.Props.Rounds
import Verif.Props.Higher
import Verif.Props.Pareto
import Verif.Props.Params
import Verif.Props.Print
import Verif.Props.Slopes
import Verif.Props.Objects
import Verif.Props.Text
import Verif.Lemmas.Curves
import Verif.Lemmas.Refine5
import Verif.Lemmas.Refine6
import Verif.Lemmas.Refine7
import Verif.Lemmas.Refine8
import Verif.Lemmas.Refine9
import Verif.Lemmas.Refine10
import Verif.Lemmas.Refine11
import Verif.Lemmas.Refine12
import Verif.Lemmas.Refine13
import Verif.Lemmas.Refine14
import Verif.Lemmas.Inside
import Verif.Lemmas.Dag
import Verif.Lemmas.Dag2
import Verif.Lemmas.Dag3
import Verif.Lemmas.Dag4
import Verif.Lemmas.Late
import Verif.Lemmas.Pieces
import Verif.Lemmas.Pieces2
import Verif.Lemmas.HollowRun
import Verif.Props.Refine
import Verif.Props.KernelTree
import Verif.Props.Windows
import Verif.Props.Moves
import Verif.Props.Linear
import Verif.Props.KernelFam
import Verif.Props.Count
import Verif.Props.Components
import Verif.Props.EndToEnd
import Verif.Props.Matched
import Verif.Props.Additive
import Verif.Props.Growing
import Verif.Props.Written
import Verif.Props.Start
import Verif.Model.SopsHeap
import Verif.Spec.SopsHeap
import Verif.Lemmas.SopsHeap
import Verif.Lemmas.SopsHeapMain
import Verif.Lemmas.SopsHeapForm
import Verif.Lemmas.SopsHeapLay
import Verif.Props.SopsHeap
import Verif.Model.Reduce
import Verif.Props.Reduce
import Verif.Model.Predict
import Verif.Props.Predict
import Verif.Lemmas.PrintInj
import Verif.Props.Printed
import Verif.Lemmas.Holes
import Verif.Lemmas.Mixed
import Verif.Lemmas.ParamsShift
import Verif.Props.Bench
import Verif.Model.Format
import Verif.Spec.Format
import Verif.Spec.Shown
import Verif.Lemmas.Format
import Verif.Lemmas.Shown
import Verif.Lemmas.ShownCut
import Verif.Lemmas.ShownSentence
import Verif.Props.Format
import Verif.Lemmas.GradNames
import Verif.Model.UtilHash
import Verif.Props.UtilHash
import Verif.Model.Samples
import Verif.Props.Samples
import Verif.Model.DiagGrad
import Verif.Props.DiagGrad
import Verif.Spec.Complete
import Verif.Lemmas.Complete
import Verif.Lemmas.CompleteMin
import Verif.Props.Complete
import Verif.Model.Vectorize
import Verif.Model.Loo
import Verif.Props.Vectorize
import Verif.Props.Sides
import Verif.Model.SearchObj
import Verif.Spec.SearchObj
import Verif.Lemmas.SearchObj
import Verif.Lemmas.SearchObj2
import Verif.Lemmas.SearchObj3
import Verif.Props.SearchObj
import Verif.Lemmas.ParamsSides
import Verif.Model.Scored
import Verif.Spec.Scored
import Verif.Lemmas.Scored
import Verif.Props.Scored
import Verif.Spec.Posterior
import Verif.Lemmas.Posterior
import Verif.Props.Posterior
import Verif.Model.PredictPart
import Verif.Spec.PredictPart
import Verif.Props.PredictPart
import Verif.Props.DescribedParts
import Verif.Model.Likelihood
import Verif.Lemmas.Density
import Verif.Lemmas.LikGrad
import Verif.Lemmas.Gibbs
import Verif.Props.Likelihood
import Verif.Props.Saved
import Verif.Lemmas.Units
import Verif.Props.Units
import Verif.Props.Fading
import Verif.Spec.Reach
import Verif.Lemmas.Reach
import Verif.Props.Reach
import Verif.Model.LooGPy
import Verif.Spec.Loo
import Verif.Props.Loo
import Verif.Spec.Memory
import Verif.Lemmas.Memory
import Verif.Lemmas.MemoryKeep
import Verif.Props.Memory
import Verif.Props.MoreData
import Verif.Props.Attain
import Verif.Props.Unbounded
import Verif.Props.Long
import Verif.Props.Best
