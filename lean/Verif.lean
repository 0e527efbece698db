import Verif.Model.Mcmcstep
import Verif.Lemmas.Basic
import Verif.Lemmas.Tree
import Verif.Lemmas.Masks
import Verif.Lemmas.Range
import Verif.Props.Grove
import Verif.Props.Sampling
import Verif.Lemmas.TreeInv
import Verif.Props.Rules
import Verif.Props.Mcmc
import Verif.Props.Exact
import Verif.Props.Balance
import Verif.Props.Jaxext
import Verif.Props.Prepcovars
import Verif.Props.Mcmcloop
import Verif.Props.Keys
import Verif.Props.Heap
import Verif.Props.Debug
import Verif.Props.Gbart
import Verif.Props.GbartExact
import Verif.Props.Ensemble
import Verif.Props.Posterior
import Verif.Props.Irreducible
import Verif.Props.Convergence
import Verif.Props.TotalVariation
import Verif.Props.Reject
import Verif.Props.Finite
import Verif.Props.PredictorMap
import Verif.Props.Reorder
import Verif.Lemmas.Binary32
import Verif.Props.Binary32
import Verif.Props.Binning32
import Verif.Props.Uniform32
import Verif.Props.Drift
import Verif.Props.Choice32
import Verif.Props.Overflow
import Verif.Spec.Standard
import Verif.Lemmas.Weighted
import Verif.Props.Standard
import Verif.Spec.Relabel
import Verif.Props.Relabel
import Verif.Props.Pointwise
import Verif.Spec.Sums
import Verif.Props.Sums
import Verif.Model.Randint
import Verif.Spec.Randint
import Verif.Props.Randint
import Verif.Model.Batched
import Verif.Props.Batched
import Verif.Props.Ieee
import Verif.Spec.StepError
import Verif.Props.StepError
import Verif.Spec.LogError
import Verif.Spec.AcceptError
import Verif.Props.AcceptError
import Verif.Model.Missing
import Verif.Spec.Missing
import Verif.Props.Missing
import Verif.Props.Prior
import Verif.Props.PriorTree
import Verif.Spec.Proposal32
import Verif.Lemmas.Proposal32
import Verif.Props.Proposal32
import Verif.Model.Counts32
import Verif.Lemmas.Counts32
import Verif.Props.Counts32
import Verif.Lemmas.Move32
import Verif.Props.Move32
import Verif.Spec.Update32
import Verif.Lemmas.Update32
import Verif.Props.Update32
import Verif.Spec.Kernel32
import Verif.Lemmas.Kernel32
import Verif.Lemmas.KernelEvent
import Verif.Lemmas.Balance32
import Verif.Props.Kernel32
import Verif.Spec.PowerScale
import Verif.Lemmas.PowerScale
import Verif.Lemmas.PowerGbart
import Verif.Props.PowerScale
import Verif.Spec.Reflect
import Verif.Lemmas.Reflect
import Verif.Lemmas.ReflectGbart
import Verif.Props.Reflect
import Verif.Spec.ReflectPost
import Verif.Lemmas.ReflectPost
import Verif.Props.ReflectPost
import Verif.Spec.Exchange
import Verif.Lemmas.Exchange
import Verif.Props.Exchange
import Verif.Spec.Opposite
import Verif.Lemmas.Opposite
import Verif.Lemmas.Opposite32
import Verif.Lemmas.OppositeTrace
import Verif.Lemmas.OppositeGbart
import Verif.Lemmas.OppositeSettings
import Verif.Props.Opposite
import Verif.Props.ReflectLaw
import Verif.Props.Int64
import Verif.Props.OppositeInspect
import Verif.Props.Checked
import Verif.Props.CpuCaveat
import Verif.Axioms
