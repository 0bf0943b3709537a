import Verif.Filter.Model
import Verif.Filter.Props
import Verif.Vec.Model
import Verif.Vec.Lemmas
import Verif.Vec.Props
import Verif.Iterate.Model
import Verif.Iterate.Lemmas
import Verif.Iterate.Props
import Verif.Iterate.Ieee
import Verif.Iterate.Start
import Verif.Barrier.Model
import Verif.Barrier.Props
import Verif.Driver.Model
import Verif.Driver.Props
import Verif.Driver.Loop
import Verif.Driver.LoopProps
import Verif.Perturb.Model
import Verif.Perturb.Lemmas
import Verif.Perturb.Props
import Verif.Perturb.Accept
import Verif.Loop
import Verif.Nlp.Model
import Verif.Nlp.Bounds
import Verif.Nlp.Remover
import Verif.Nlp.Relax
import Verif.Nlp.Scaling
import Verif.Nlp.Chain
import Verif.Nlp.Eval
import Verif.Iterate.Step
import Verif.Kkt.Model
import Verif.Kkt.Lemmas
import Verif.Kkt.Props
import Verif.Kkt.Dense
import Verif.Kkt.DenseXD
import Verif.Kkt.Systems
import Verif.Resid.Model
import Verif.Resid.Props
import Verif.Resid.Descent
import Verif.Krylov.Model
import Verif.Krylov.Props
import Verif.Sparse.Model
import Verif.Sparse.Props
import Verif.Sparse.Rows
import Verif.Sparse.Assembly
import Verif.Sparse.Kkt
import Verif.QN.Core
import Verif.QN.Model
import Verif.QN.Memory
import Verif.QN.Solve
import Verif.QN.Props
import Verif.PriDec.Protocol
import Verif.PriDec.Invariant
import Verif.PriDec.Fair
import Verif.PriDec.Props
import Verif.PriDec.Recourse
import Verif.PriDec.Alg
import Verif.PriDec.AlgProps
import Verif.Options.Table
import Verif.Options.Model
import Verif.Options.Spec
import Verif.Options.Lemmas
import Verif.Options.Consist
import Verif.Options.Props
import Verif.Csr.Model
import Verif.Csr.Spec
import Verif.Csr.Lemmas
import Verif.Csr.Form
import Verif.Csr.Ops
import Verif.Csr.Props
import Verif.Csr.Condensed
import Verif.Csr.CondProps
import Verif.Duals.Model
import Verif.Duals.Props
import Verif.Checkpoint.Model
import Verif.Checkpoint.Lemmas
import Verif.Checkpoint.Props
import Verif.Mpi.Model
import Verif.Mpi.Lemmas
import Verif.Mpi.Props
import Verif.Mpi.Algo
import Verif.Fr.Model
import Verif.Fr.Lemmas
import Verif.Fr.Props
import Verif.Fr.Hess
import Verif.Fr.Steps
import Verif.Evals.Model
import Verif.Evals.Props
import Verif.Lin.Model
import Verif.Lin.Lemmas
import Verif.Lin.Sym
import Verif.Lin.SymProps
import Verif.Lin.Non
import Verif.Lin.NonProps
import Verif.Lin.Sylvester
import Verif.Lin.Inertia
import Verif.Lin.InertiaProps
import Verif.Lin.Saddle
import Verif.Kkt.Inertia
import Verif.Kkt.InertiaProps
import Verif.Compound.Model
import Verif.Compound.Props
import Verif.Range.Model
import Verif.Range.Props
import Verif.Sparse.Full
import Verif.Sparse.FullLemmas
import Verif.Sparse.FullProps
import Verif.DenseMat.Model
import Verif.DenseMat.Lemmas
import Verif.DenseMat.Props
import Verif.Csr.Normal
import Verif.Csr.NormalProps
import Verif.Perturb.Kind
import Verif.Mds.Model
import Verif.Mds.Props
import Verif.Kron.Model
import Verif.Kron.Lemmas
import Verif.Kron.Props
import Verif.Raja.Sched
import Verif.Raja.Model
import Verif.Raja.Lemmas
import Verif.Raja.Props
import Verif.Raja.Assembly
import Verif.Raja.VecModel
import Verif.Raja.VecProps
import Verif.Raja.DenseModel
import Verif.Raja.DenseProps
import Verif.Select.Model
import Verif.Select.Props
import Verif.Select.Run
import Verif.CApi.Model
import Verif.CApi.Props
import Verif.CApi.Fortran
import Verif.Ipopt.Model
import Verif.Ipopt.Props
import Verif.Wrap.Model
import Verif.Wrap.Props
import Verif.Callback.Model
import Verif.Callback.Props
import Verif.IneqForm.Model
import Verif.IneqForm.Props
import Verif.Gpu.Model
import Verif.Gpu.Props
import Verif.Options.Print
import Verif.Options.PrintProps
import Verif.Options.Log
import Verif.Options.LogProps
import Verif.Life.Model
import Verif.Life.Check
import Verif.Life.Props
import Verif.Session.Model
import Verif.Session.Props
import Verif.Fgmres.Model
import Verif.Fgmres.Gs
import Verif.Fgmres.Cycle
import Verif.Fgmres.Props
import Verif.Refact.Model
import Verif.Refact.Props
import Verif.Refine.Model
import Verif.Refine.Props
import Verif.CsrGpu.Model
import Verif.CsrGpu.Props
import Verif.KryKer.Model
import Verif.KryKer.Props
import Verif.Mem.Model
import Verif.Mem.Props
import Verif.Stats.Model
import Verif.Stats.Props
import Verif.FrMpi.Model
import Verif.FrMpi.Lemmas
import Verif.FrMpi.Props
import Verif.CApi.FortranDense
import Verif.RemMpi.Model
import Verif.RemMpi.Props
import Verif.IterLog.Model
import Verif.IterLog.Props
import Verif.IntVec.Model
import Verif.IntVec.Props
import Verif.ProbType.Model
import Verif.ProbType.Props
import Verif.StartPt.Model
import Verif.StartPt.Props
import Verif.PdSession.Model
import Verif.PdSession.Props
import Verif.UserArgs.Model
import Verif.UserArgs.Props
import Verif.SoftFr.Model
import Verif.SoftFr.Props
import Verif.KktFile.Model
import Verif.KktFile.Props
