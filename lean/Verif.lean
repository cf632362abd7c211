import Verif.Base.AdamsBashforth
import Verif.Base.Arr
import Verif.Base.Converge
import Verif.Base.Gradient
import Verif.Base.Ieee
import Verif.Base.Loop
import Verif.Base.Memory
import Verif.Base.Order
import Verif.Base.Rounding
import Verif.Base.Tactics
import Verif.Beamline.Model
import Verif.Beamline.Props
import Verif.Beamline.Symmetry
import Verif.Bunch.Alternative
import Verif.Bunch.Lemmas
import Verif.Bunch.Model
import Verif.Bunch.Props
import Verif.Bunch.Spec
import Verif.BunchGen.Matched
import Verif.BunchGen.Model
import Verif.BunchGen.Props
import Verif.CSR.Convolution
import Verif.CSR.Kernel
import Verif.CSR.KernelProps
import Verif.CSR.Lemmas
import Verif.CSR.LineCharge
import Verif.CSR.Model
import Verif.CSR.PathHistory
import Verif.CSR.PathSum
import Verif.CSR.Props
import Verif.CSR.Shift
import Verif.CSR.ShortRange
import Verif.CSR.Spec
import Verif.CSR.Symmetry
import Verif.Deposition.Continuous
import Verif.Deposition.Lemmas
import Verif.Deposition.Model
import Verif.Deposition.Positive
import Verif.Deposition.Props
import Verif.Deposition.PropsRuyten
import Verif.Deposition.Refine
import Verif.Deposition.Rounding
import Verif.Deposition.RoundingCoef
import Verif.Deposition.RoundingProps
import Verif.Deposition.Ruyten
import Verif.Deposition.Spec
import Verif.Diag.Analysis
import Verif.Diag.Mesh
import Verif.Diag.Model
import Verif.Double
import Verif.Element.Conj
import Verif.Element.Csr
import Verif.Element.FieldQuad
import Verif.Element.Free
import Verif.Element.Lemmas
import Verif.Element.Lemmas2
import Verif.Element.Model
import Verif.Element.Moments
import Verif.Element.Props
import Verif.Element.QuadPath
import Verif.Element.Spec
import Verif.Element.Symmetry
import Verif.Element.Turned
import Verif.Fields.Model
import Verif.Fields.Props
import Verif.Fields.Spec
import Verif.Interp.Accuracy
import Verif.Interp.Adjoint
import Verif.Interp.Continuous
import Verif.Interp.Lemmas
import Verif.Interp.Model
import Verif.Interp.Props
import Verif.Interp.Rounding
import Verif.Interp.RoundingProps
import Verif.Interp.Spec
import Verif.Laser.Ahead
import Verif.Laser.Convergence
import Verif.Laser.Envelope
import Verif.Laser.EnvelopeEq
import Verif.Laser.EnvelopeProps
import Verif.Laser.FromFile
import Verif.Laser.LaguerreGauss
import Verif.Laser.ProfileProps
import Verif.Laser.Profiles
import Verif.Laser.Pulse
import Verif.Laser.Scale
import Verif.Laser.Similar
import Verif.Laser.Stability
import Verif.Laser.Subgrid
import Verif.Laser.Superpose
import Verif.Laser.Tdma
import Verif.Laser.Truncation
import Verif.Laser.Unstable
import Verif.Laser.Unwrap
import Verif.Plasma.Ahead
import Verif.Plasma.AtParticles
import Verif.Plasma.Axis
import Verif.Plasma.BTheta
import Verif.Plasma.BThetaProps
import Verif.Plasma.Cavity
import Verif.Plasma.ColdFluid
import Verif.Plasma.ColdFluidDensity
import Verif.Plasma.ColdFluidEnergy
import Verif.Plasma.ColdFluidFields
import Verif.Plasma.ColdFluidLinear
import Verif.Plasma.ColdFluidOrder
import Verif.Plasma.ColdFluidProps
import Verif.Plasma.Column
import Verif.Plasma.Deposit
import Verif.Plasma.Lorentz
import Verif.Plasma.Memory
import Verif.Plasma.MemoryProps
import Verif.Plasma.Model
import Verif.Plasma.Ponderomotive
import Verif.Plasma.Positive
import Verif.Plasma.PsiAtRadii
import Verif.Plasma.PsiDeriv
import Verif.Plasma.PsiProps
import Verif.Plasma.Push
import Verif.Plasma.PushProps
import Verif.Plasma.PusherOrder
import Verif.Plasma.Quiet
import Verif.Plasma.RoundingDeposit
import Verif.Plasma.Solver
import Verif.Plasma.SolverLemmas
import Verif.Plasma.SolverProps
import Verif.Push.Cone
import Verif.Push.Converge
import Verif.Push.Exact
import Verif.Push.Lemmas
import Verif.Push.Memory
import Verif.Push.MemoryProps
import Verif.Push.Model
import Verif.Push.Order
import Verif.Push.Props
import Verif.Push.Rounding
import Verif.Push.RoundingProps
import Verif.Push.RoundingStep
import Verif.Push.Scaled
import Verif.Push.Spec
import Verif.Push.Symmetry
import Verif.Push.Volume
import Verif.Stage.Acceleration
import Verif.Stage.Amplitude
import Verif.Stage.Args
import Verif.Stage.Betatron
import Verif.Stage.Causal
import Verif.Stage.CausalLaser
import Verif.Stage.Channel
import Verif.Stage.Charge
import Verif.Stage.Fields
import Verif.Stage.History
import Verif.Stage.Invariants
import Verif.Stage.Lost
import Verif.Stage.Macroparticles
import Verif.Stage.Model
import Verif.Stage.Moved
import Verif.Stage.Nodes
import Verif.Stage.Options
import Verif.Stage.Polarization
import Verif.Stage.Props
import Verif.Stage.Regroup
import Verif.Stage.Reuse
import Verif.Stage.Similar
import Verif.Stage.Species
import Verif.Stage.Split
import Verif.Stage.Wake
import Verif.Stage.WakeTurned
import Verif.Stage.Work
import Verif.Tracker.Ahead
import Verif.Tracker.Cone
import Verif.Tracker.Converge
import Verif.Tracker.Exact
import Verif.Tracker.FieldElement
import Verif.Tracker.Gyration
import Verif.Tracker.Interrupted
import Verif.Tracker.Invariant
import Verif.Tracker.Lag
import Verif.Tracker.Lemmas
import Verif.Tracker.Lockstep
import Verif.Tracker.Model
import Verif.Tracker.Nan
import Verif.Tracker.Order
import Verif.Tracker.Outputs
import Verif.Tracker.Perturbed
import Verif.Tracker.Props
import Verif.Tracker.Regroup
import Verif.Tracker.Related
import Verif.Tracker.Replay
import Verif.Tracker.Rounding
import Verif.Tracker.RoundingEnds
import Verif.Tracker.RoundingLoop
import Verif.Tracker.RoundingSchedule
import Verif.Tracker.RoundingTiny
import Verif.Tracker.Scaled
import Verif.Tracker.Similar
import Verif.Tracker.Simulation
import Verif.Tracker.Smooth
import Verif.Tracker.Spec
import Verif.Tracker.Split
import Verif.Tracker.Steps
import Verif.Tracker.Together
import Verif.Tracker.Turned
import Verif.Tracker.Volume
import Verif.TransferMatrix.Combined
import Verif.TransferMatrix.CombinedProps
import Verif.TransferMatrix.CombinedRows
import Verif.TransferMatrix.Continuity
import Verif.TransferMatrix.Entries
import Verif.TransferMatrix.Lemmas
import Verif.TransferMatrix.Mirror
import Verif.TransferMatrix.Model
import Verif.TransferMatrix.Props
import Verif.TransferMatrix.PropsSecond
import Verif.TransferMatrix.SecondOrder
import Verif.TransferMatrix.Spec
import Verif.TransferMatrix.Turned
import Verif.Util.RadialGradient
