import Verif.Canon.Props
import Verif.Scenario.Props
import Verif.Symmetry.Props
import Verif.Cliques.Props
import Verif.Components.Props
import Verif.Orbits.Props
import Verif.SymMM.Props
import Verif.MomentMatrix.Props
import Verif.SymMM.ColumnsProps
import Verif.Knowable.Props
import Verif.SdpRepr.Props
import Verif.Positivity.Props
import Verif.Positivity.HermitianProps
import Verif.Marginal.Props
import Verif.Moment.Props
import Verif.State.LpProps
import Verif.SdpState.Truth
import Verif.CollinsGisin.ProblemProps
import Verif.LpSolver.Props
import Verif.LpSolver.Relax
import Verif.LpSolver.CertProps
import Verif.LpSolver.Witness
import Verif.LpSolver.Inflation
import Verif.LpSolver.Dicts
import Verif.SdpSolver.Witness
import Verif.Certificates.Clean
import Verif.Certificates.CleanLemmas
import Verif.Certificates.CleanProps
import Verif.Certificates.Report
import Verif.Certificates.ReportProps
import Verif.Certificates.ReportWitness
import Verif.Optimize.Model
import Verif.Optimize.Bisect
import Verif.Optimize.BisectWitness
import Verif.Optimize.Dual
import Verif.Optimize.DualWitness
import Verif.Common.Text
import Verif.Writers.LpModel
import Verif.Writers.LpSpec
import Verif.Writers.LpLemmas
import Verif.Writers.LpText
import Verif.Writers.LpProps
import Verif.Writers.LpWitness
import Verif.Writers.MpsModel
import Verif.Writers.MpsSpec
import Verif.Writers.MpsText
import Verif.Writers.MpsRead
import Verif.Writers.MpsProps
import Verif.Writers.MpsWitness
import Verif.Normalization.Model
import Verif.Normalization.Spec
import Verif.Normalization.Lemmas
import Verif.Normalization.Props
import Verif.Normalization.Witness
import Verif.Columns.Model
import Verif.Columns.Lemmas
import Verif.Columns.Core
import Verif.Columns.LocalSpecs
import Verif.Columns.Spec
import Verif.Columns.Props
import Verif.Columns.Witness
import Verif.Names.Legacy
import Verif.Names.Witness
import Verif.SdpWriter.Model
import Verif.SdpWriter.Spec
import Verif.SdpWriter.Matrix
import Verif.SdpWriter.Sections
import Verif.SdpWriter.Core
import Verif.SdpWriter.Value
import Verif.SdpWriter.Read
import Verif.SdpWriter.Count
import Verif.SdpWriter.Props
import Verif.SdpWriter.Witness
import Verif.EndToEnd.Expect
import Verif.EndToEnd.Spec
import Verif.EndToEnd.Inflated
import Verif.EndToEnd.Factor
import Verif.EndToEnd.Original
import Verif.EndToEnd.Model
import Verif.EndToEnd.TruthSpec
import Verif.EndToEnd.Truth
import Verif.EndToEnd.Columns
import Verif.EndToEnd.Known
import Verif.EndToEnd.Build
import Verif.EndToEnd.Solver
import Verif.EndToEnd.Props
import Verif.EndToEnd.CertProps
import Verif.EndToEnd.Witness
import Verif.EndToEnd.Dag
import Verif.EndToEnd.DagCert
import Verif.EndToEnd.DagWitness
import Verif.SdpSolver.Duality
import Verif.Certificates.Polynomial
import Verif.LpSolver.Bounds
import Verif.SdpEnd.Model
import Verif.SdpEnd.Spec
import Verif.SdpEnd.Bounds
import Verif.SdpEnd.Truth
import Verif.SdpEnd.Atoms
import Verif.SdpEnd.Factor
import Verif.SdpEnd.Capacity
import Verif.SdpEnd.Matrix
import Verif.SdpEnd.Psd
import Verif.SdpEnd.State
import Verif.SdpEnd.Solve
import Verif.SdpEnd.Distribution
import Verif.SdpEnd.Props
import Verif.SdpEnd.CertProps
import Verif.SdpEnd.Answers
import Verif.SdpEnd.Classical
import Verif.SdpEnd.ClassicalProps
import Verif.SdpEnd.Unit
import Verif.SdpEnd.Raise
import Verif.SdpEnd.Hermitian
import Verif.SdpEnd.QuantumSound
import Verif.SdpEnd.ClassicalSound
import Verif.SdpEnd.Witness
import Verif.SdpEnd.HermitianFalse
import Verif.Theory.Spec
import Verif.Theory.Events
import Verif.Theory.Columns
import Verif.Theory.Known
import Verif.Theory.Props
import Verif.Theory.CertProps
import Verif.Theory.Quantum
import Verif.Theory.Witness
import Verif.QuantumNet.Tensor
import Verif.QuantumNet.State
import Verif.QuantumNet.Spec
import Verif.QuantumNet.Inflate
import Verif.QuantumNet.Model
import Verif.QuantumNet.Born
import Verif.QuantumNet.Props
import Verif.QuantumNet.Witness
import Verif.Sanitise.Model
import Verif.Sanitise.Cache
import Verif.Sanitise.Relabel
import Verif.Sanitise.Spec
import Verif.Sanitise.Text
import Verif.Sanitise.Session
import Verif.Sanitise.Read
import Verif.Sanitise.Props
import Verif.Sanitise.Bracket
import Verif.Sanitise.Symbols
import Verif.Sanitise.Witness
import Verif.Distinct.Glue
import Verif.Distinct.Moments
import Verif.Distinct.Lp
import Verif.Distinct.Closure
import Verif.Distinct.Ready
import Verif.Distinct.Rows
import Verif.Distinct.Solid
import Verif.Distinct.Props
import Verif.Distinct.Witness
import Verif.Views.Model
import Verif.Views.Rows
import Verif.Views.Semi
import Verif.Views.Props
import Verif.Views.Fresh
import Verif.Views.End
import Verif.Views.Witness
import Verif.Factorised.Model
import Verif.Factorised.Props
import Verif.Factorised.Witness
import Verif.LpSolver.RelaxDual
import Verif.Search.Model
import Verif.Search.Stateless
import Verif.Search.Props
import Verif.Search.Witness
import Verif.Optimum.Lp
import Verif.Optimum.LpFunctional
import Verif.Optimum.Sdp
import Verif.Optimum.SdpRead
import Verif.Optimum.Witness
import Verif.SdpSearch.Model
import Verif.SdpSearch.Stateful
import Verif.SdpSearch.Props
import Verif.SdpSearch.Ready
import Verif.SdpSearch.Witness
import Verif.SdpNames.Model
import Verif.SdpNames.Reduced
import Verif.SdpNames.Words
import Verif.SdpNames.Text
import Verif.SdpNames.Props
import Verif.SdpNames.Witness
import Verif.Generate.Orbit
import Verif.Generate.Build
import Verif.Generate.Equalities
import Verif.Generate.Columns
import Verif.Generate.Props
import Verif.Generate.Witness
import Verif.Physical.Model
import Verif.Physical.Spec
import Verif.Physical.Lemmas
import Verif.Physical.Members
import Verif.Physical.Props
import Verif.Physical.Text
import Verif.Physical.Witness
import Verif.Linear.Separate
import Verif.Linear.Involution
import Verif.Linear.Props
import Verif.Linear.Witness
import Verif.Linear.Excluded
import Verif.Symbolic.Model
import Verif.Symbolic.Props
import Verif.Symbolic.Witness
import Verif.Symbolic.Measurements
import Verif.Symbolic.MeasurementProps
import Verif.Listings.Relations
import Verif.Listings.FileNames
import Verif.SdpWriter.Mat
import Verif.SdpWriter.Readable
import Verif.SdpWriter.ReadableWitness
import Verif.Hierarchy.Orbit
import Verif.Hierarchy.Cells
import Verif.Hierarchy.Solves
import Verif.Hierarchy.Values
import Verif.Hierarchy.Known
import Verif.Hierarchy.State
import Verif.Hierarchy.Transfer
import Verif.Hierarchy.Props
import Verif.Hierarchy.Witness
import Verif.Hierarchy.Physical
import Verif.Mixture.Lemmas
import Verif.Mixture.Props
import Verif.Mixture.Witness
import Verif.Mixture.Refused
import Verif.Mixture.Closed
import Verif.Mixture.Accepts
import Verif.Mixture.ClosedProps
import Verif.Mixture.ClosedWitness
import Verif.Mixture.Weaker
