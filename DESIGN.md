# Formal model of Wake-T: design and trusted base

## What this is

`/verif/lean` is a Lean 4 (4.33.0, Mathlib) project. It contains

* a *model*: Lean definitions that mirror functions of Wake-T branch by
  branch, each with a comment citing the file and lines it models;
* *specifications*: short definitions, independent of the model's helpers,
  that say what a property means;
* *theorems*: the properties of `properties.jsonl`, each beside an `example`
  showing that a concrete, non-trivial case meets its hypotheses.

Layout: every area has a directory `lean/Verif/<Area>/` with `Model.lean`
(the model), `Lemmas*.lean` (helper lemmas) and `Props.lean` (property
theorems, non-vacuity examples, and witnesses of violations).

## Trusted base

* The Lean 4.33.0 kernel. `vcheck` replays every module in the kernel.
* Axioms: no axiom is declared in this project. The theorems use at most
  `propext`, `Classical.choice`, `Quot.sound` (most theorems about real
  numbers use all three through Mathlib). Section "Axioms per theorem" below
  lists what `#print axioms` says.
* The reading of the Python source. The code is not run and nothing is
  extracted; the tie between code and model is the citation in each comment.

### Numbers

Floating point numbers are modelled as exact numbers: elements of an ordered
field (with a floor function where `ceil`/`floor` is used), or `ℝ` where
`sqrt`, `log`, `exp`, trigonometric functions or complex numbers are needed.
Rounding, overflow, NaN and infinities are not modelled, with three exceptions:

* the tracker compares times after a cast to `float32`; the cast is a
  parameter of the model (an arbitrary monotone function), so theorems hold
  for every such rounding, or say which extra property they need;
* the deposition of particles, the gathering of fields, the Boris pusher and the clocks of
  the tracking loop are modelled a second time with a rounding after every operation
  (`Deposition/Rounding.lean`, `Deposition/RoundingCoef.lean`, `Plasma/RoundingDeposit.lean`,
  `Interp/Rounding.lean`, `Push/Rounding.lean`, `Tracker/RoundingLoop.lean`, `Tracker/RoundingSchedule.lean`, `Tracker/RoundingTiny.lean`,
  `Tracker/RoundingEnds.lean`); the rounding is a
  parameter of which only a bound of its relative error is assumed (no
  overflow or underflow); `Base/Ieee.lean` shows that rounding to nearest with
  53 or 24 digits satisfies it, and `Double.lean` draws the conclusions for numbers of 64 bits;
* a division whose denominator may vanish is reported (as an error value or
  as a hypothesis `≠ 0` in the theorem), never silently totalised. Where Lean's
  convention `x / 0 = 0` could make a theorem true for the wrong reason the
  theorem carries the guard.

Theorems about "exact" values are therefore statements about the algorithm in
exact arithmetic.

### Arrays, mutation, exceptions

Arrays are lists or functions from indices; in-place mutation returns the new
value; exceptions are values of an error type. `prange` loops are modelled as
folds over an arbitrary order of the indices where the property is about the
schedule (C11), and as a sequential fold elsewhere.

### External code

numpy/scipy/numba/openpmd-api/h5py/aptools calls are modelled by their
documented result on exact numbers. User callbacks (density profiles, field
functions, adaptive time step functions, random number generators) are
parameters, with the assumptions on them stated in the theorems.

## Which parts of the code are modelled

Every definition of the model cites file and lines. Files below are relative
to `/repo/wake_t`, Lean modules to `lean/Verif`.

| Python | Lean | modelled | not modelled |
|---|---|---|---|
| `tracking/tracker.py`, `beamline_elements/field_element.py` | `Tracker/Model`, `Tracker/FieldElement`, `Tracker/Nan` | `do_tracking`, `evolve_bunch`, `generate_diagnostics`, `__init__`, `FieldElement.track` | progress bar, printed output |
| `fields/numerical_field.py`, `base.py`, `gather.py`, `analytical_field.py` | `Fields/Model`, `Push/Model` | `update`, `adjust_dt`, `gather_fields`, `gather` of the library fields | user-defined analytical fields are parameters |
| `fields/interpolation.py`, `particles/interpolation.py` | `Interp/Model` | all functions | |
| `fields/rz_wakefield.py` | `Stage/Wake`, `Diag/Mesh` (also `Plasma/Solver`, `Plasma/ColdFluid`) | everything that is computed, openPMD data of the fields | names of solver and boundaries in the openPMD data |
| `particles/deposition.py` | `Deposition/Model` | all | |
| `particles/particle_bunch.py` | `Bunch/Model`, `Push/Memory` | all except `show` and the unused setters | |
| `particles/push/*.py` | `Push/Model`, `Push/Memory`, `Push/Rounding`, `TransferMatrix/Model` | all | |
| `physics_models/beam_optics/transfer_matrices.py` | `TransferMatrix/Model` | all | |
| `physics_models/collective_effects/csr.py` | `CSR/Model`, `CSR/Kernel` | everything (`np.histogram`, `np.interp`, `np.convolve` and `gaussian_kde` by their definitions) | results of divisions by zero (`inf`, `nan`) |
| `beamline_elements/tm_elements.py`, `beamline.py` | `Element/Model`, `Beamline/Model` | `TMElement` and subclasses, `Beamline.track` | printed properties (only whether printing raises) |
| `beamline_elements/plasma_stage.py`, `plasma_ramp.py`, `active_plasma_lens.py`, `field_quadrupole.py` | `Stage/Model`, `Stage/Args`, `Stage/Fields`, `Stage/Wake` | constructors, density profiles, automatic steps, the list of fields, tracking through a stage with a wakefield on a grid | |
| `physics_models/em_fields/*`, `simple_blowout.py`, `custom_blowout.py`, `focusing_blowout.py` | `Fields/Model`, `Stage/Fields` | all | |
| `physics_models/plasma_wakefields/qs_rz_baxevanis/*` | `Plasma/*` | the solver `calculate_wakefields` with everything it calls, and `calculate_psi_and_derivatives`, which is never called | — |
| `physics_models/plasma_wakefields/qs_cold_fluid_1x3p.py` | `Plasma/ColdFluid` | `_calculate_wakefield` | constructor |
| `physics_models/laser/*` | `Laser/*` | tridiagonal solver, unwrapping, both envelope solvers, Gaussian, Laguerre-Gauss, flattened and summed pulses, pulses from files, parameters, subgrid and step counting | what `lasy` reads from a file and the Gaussian filter of `OpenPMDPulse` (parameters) |
| `diagnostics/openpmd_diag.py` | `Diag/Model`, `Diag/Mesh` | iterations, times, species names, positions, particle data, meshes and their units | attributes of the file format |
| `diagnostics/bunch_analysis.py` | `Diag/Analysis` | all except `save_bunch_to_file` | the statistics of aptools (parameters), creation of folders |
| `utilities/bunch_generation.py`, `bunch_saving.py`, `bunch_manipulation.py`, `other.py` | `BunchGen/Model`, `TransferMatrix/Model`, `Base/Gradient`, `Util/*` | all except file parsing (aptools) | progress bar |

## What is not modelled

Progress bars, plotting and printed output; the statistics functions of
aptools (parameters of the model); the openPMD file format; numba
compilation (`utilities/numba.py`), thread counts, performance; and rounding
errors other than the `float32` comparisons and those of the models listed under
"Numbers".

## Where the code does not have the property

Where a property of the list fails, the failure is proved in the model by a
concrete case (mostly theorems named `..._violated`), a theorem states what
does hold, and the manifest marks the property "partial". Items without a
property number are only noted. The main ones:

* Tracking: without diagnostics (`n_diags = 0`) `do_tracking` always raises
  (C08). A field object used in a second tracking keeps the clock of the first
  one (C05). A step of zero (also `dz_fields = 0`, which the documentation
  allows) never ends, and the comparisons in single precision can turn the
  last step of a bunch into millions of tiny ones, or repeat it for ever
  (C06), and lose the snapshot at the end of a stage (C202).
* Elements: with `out_initial=True` and no `n_out` the bunch is not updated
  (C40). The first reference energy is stored in the element (C42). An element
  of the base class raises when its properties are printed (C82). `backtrack`
  changes distances only (C83). `int(length / csr_step)` (tm_elements.py 209)
  loses a step when the quotient is rounded down (C39).
* CSR: `clear` does not clear the steps of the elements, so elements added
  later get the steps of earlier ones (C67). The position of an element object
  used twice is that of its first occurrence (C80).
* Beamlines with several bunches concatenate the lists of the elements (C84).
* Second-order maps: line 136 of transfer_matrices.py lacks a factor 1/4, the
  expression `J3` is wrong (the commented-out one is right), and the limits on
  the resonance `5 k1 + h^2 = 0` are those of a drift (C78, C104).
* Bunches: the alternative matrix does not round-trip (C22), copies lose
  `z_injection` and `tags` (C23), arrays are not reallocated when the number of
  particles changes (C75), saving drops the propagation distance (C94). The
  constructor does not copy the arrays it is given: bunches made from the same
  arrays move together (C194).
* Deposition: with linear shapes the radial cell is compared with the number
  of slices (particles/deposition.py 120 and qs_rz_baxevanis/deposition.py 90;
  C15, C64). An unknown plasma shape deposits nothing without an error.
* Gathering: a particle exactly on axis divides by zero (C13).
* Laser: the last row of the tridiagonal system uses the wrong coefficient
  (C48), which makes the solver unstable on coarse grids (C176). Changes of the grid are rejected only if all five parameters change,
  and the subgrid is changed before the error (C51). A summed pulse loses the
  circular polarization (C52). Carried to a finer subgrid, the plasma
  susceptibility can become negative next to the axis (C118). With
  `use_phase=True` a constant phase of the envelope changes its evolution, as
  the ghost rows in front of the grid always have phase zero (C124). In
  openPMD files the normalised envelope is declared a vector potential (C132).
* Quasistatic wakefield: psi_and_derivatives.py 156 has `r_max` instead of
  `r_max**4` (C59). Particles that leave the radial extent of the grid keep
  the sources gathered last (C101). Resetting fast particles to rest breaks
  `gamma - p_z = 1 + psi` (C61). The outer radii in the potential at particles,
  in the potential on the grid and in the magnetic field differ (C105). The
  unused `calculate_psi_and_derivatives` takes the last particle in memory for
  the outermost one (C188). The history of the Adams-Bashforth pusher begins
  with zeros, so that it is of first order only if the plasma is not at rest over
  the first slices (C192).
* Cold fluid wakefield: at the node next to the axis the magnetic field is twice
  that of the current, as the integral takes half of the first cell instead of
  a quarter (qs_cold_fluid_1x3p.py 235; the quasistatic solver has the
  correction, solver.py 505; C137).
* Analysis: parameters saved to a file cannot be read with h5py 3.0 or later
  (bunch_analysis.py 92; C139).
* Plasma stages: a stage that is used again goes on where it stopped, with the
  density at the end of the previous tracking (C134).
* Cold fluid: with `beam_wakefields=False` the beam still enters the magnetic
  and the radial electric field (C92). With slices that are too
  long for the driver the susceptibility can be negative (C191).
* Arguments of plasma elements: an unknown `ramp_type` is a downramp. Some
  documented names of profiles and models are not accepted, a density given as
  an integer raises, a ramp with a decay length still needs the density at the
  top, and functions that return a number fail with the automatic step (C141).
  `dt_bunch=None`, documented as automatic, gives an endless loop (C140).
* Generated bunches: the longitudinal distribution is truncated at three
  standard deviations, which shortens the bunch (C70).

## Axioms per theorem

Output of `#print axioms` for the theorems named in `MANIFEST.json`:

* `propext` only: `WakeT.Beamline.line_append`, `WakeT.Beamline.line_outputs_partial`, `WakeT.Beamline.line_single`, `WakeT.Beamline.several_bunches_violated`.
* `propext`, `Quot.sound` only: `WakeT.Fields.adjustDt_off`, `WakeT.Tracker.Rounded.exact_tracking`, `WakeT.Tracker.dt_none_violated`, `WakeT.Tracker.no_diags_never_returns`, `WakeT.Tracker.no_diags_raises`, `WakeT.Tracker.nstep_lift`, `WakeT.Tracker.snapshots_replay`, `WakeT.Tracker.zero_step_never_ends`, `WakeT.Util.radialGradient_eq`, `WakeT.Util.radial_congr`, `WakeT.interleaving_irrelevant`.
* `propext`, `Classical.choice`, `Quot.sound`: all others.

No other axiom occurs.

## Per property: what is modelled, how it is proved

* **C01** — Model: the whole loop of `Tracker.do_tracking` and `evolve_bunch` over abstract world state, abstract adaptive step and abstract float32 cast. Proof: invariant by induction over loop iterations (`t_i + dt_i <= t_final` or arrived). Violations expected for bunch steps larger than t_final without diagnostics push, and for a non-injective cast.
* **C02** — Same model, with a ghost log of events. Invariant: the pushes of bunch i in the log chain from 0 to the clock of i.
* **C03** — Same model. Invariant: cast of last event time <= cast of every object's next time.
* **C04** — Same model. Invariant on the diagnostics clock (k*t_final/n) and bunch clocks at diagnostics.
* **C05** — Same model plus `NumericalField.update`. Invariant on the field clock; counting.
* **C06** — Same model. A decreasing potential bounds the number of iterations; a zero step gives a witness of divergence. With numbers of 64 and 32 bits tiny steps at the end of a stage violate the bound, and just below a power of two the loop never ends (`Tracker/RoundingTiny.lean`); it ends for almost all final times (C205).
* **C07** — Argmin of the casts returns the first minimal index; consequence for the order in which same-time events appear in the log.
* **C08** — Expected violation: model of the error path; theorem that every tracking with n_diags = 0 raises.
* **C09** — `adjust_dt` over a floor field; lemma about ceil.
* **C10** — `gather_fields` over lists of accumulate/assign field models; permutation invariance by `List.Perm` induction; violation witness for assigning fields; theorem for the list order used by PlasmaStage.
* **C11** — Parallel loop = fold of point updates over a permutation of indices.
* **C12** — `interpolate_rz_field` per output point over a floor field.
* **C13** — `gather_main_fields_cyl_linear` per particle over the reals.
* **C14** — Both deposition loops as folds of `+=` over particles, array = finitely supported function on integer index pairs; sum over the array.
* **C15** — Index analysis of the branches. Expected violation for the linear shape (line 120 tests r_cell against nz) and for tiny grids with the cubic shape.
* **C16** — Index bounds from ceil lemmas.
* **C17** — Weighted sums of shape coefficients.
* **C18** — Interval integrals of the piecewise polynomial shape times r.
* **C19** — Permutation invariance of the fold; additivity in the weight.
* **C20** — Identity between gather and deposit weights for interior particles.
* **C21** — Rows of matrices as functions; equalities.
* **C22** — Expected violation: witness; partial theorem for what does round-trip.
* **C23** — Record copy. Expected violation for z_injection and tags; partial theorem for bunches without z_injection.
* **C24** — Ordered field, absolute values.
* **C25** — Weighted averages of lists.
* **C26** — Induction over the list of evolve calls.
* **C27** — `evolve` with the injection test, both pushers.
* **C28** — Algebra of the Boris rotation over the reals.
* **C29** — As C28, plus the norm preservation that makes gamma equal in both directions.
* **C30** — sqrt inequality.
* **C31** — Loop model with explicit buffers against a textbook definition.
* **C32** — Both pushers at dt = 0.
* **C33** — Induction over the list of steps.
* **C34** — Matrix over the reals with complex square roots as in the code; trigonometric addition theorems in all branches.
* **C35** — M^T S M = S in all branches.
* **C36** — sqrt algebra.
* **C37** — cos/sin identities.
* **C38** — Uses C34 through the model of `TMElement.track`.
* **C39** — Model of `_determine_steps` and the loop with Python's negative-stride slice.
* **C40** — Expected violation for out_initial=True, n_out=None: witness; theorem for all other combinations.
* **C41** — Telescoping of the reference orbit formula.
* **C42** — Expected violation: the element stores the first reference energy; witness and theorem for explicitly given gamma_ref.
* **C43** — Second-order coefficients for the drift case.
* **C44** — Fold over elements with diagnostics state.
* **C45** — State machine of `write_diagnostics`.
* **C46** — Real analysis of the three profiles.
* **C47** — Minimum over particles, maximum over samples.
* **C48** — Expected violation in the last row: witness; partial theorem for the other rows and for the row actually solved.
* **C49** — Induction over the sequence; modular arithmetic over a floor field.
* **C50** — Refinement of the in-place sweep to the two-array specification, tridiagonal solver as parameter.
* **C51** — State machine. Expected violation (conditions joined by `and`): witness; partial theorem.
* **C52** — Lists of pulses. Expected violation for the polarization.
* **C53** — Binomial sum.
* **C54** — Complex modulus of the envelope formula; Gaussian integral for the power.
* **C55** — Real inequality.
* **C56** — Finite sums.
* **C57** — Finite sums, model of the at-particles computation.
* **C58** — Loop invariant of the incremental search; sum over sorted list = filtered sum over any permutation.
* **C59** — `HasDerivAt`. Expected violation at the outer boundary term for a parabolic profile.
* **C60** — Recurrences, positivity invariant, restart loop with arbitrary stop criterion.
* **C61** — Field algebra.
* **C62** — Interval integral / polynomial identities; induction over pushes.
* **C63** — Mirror equivariance.
* **C64** — Violation for the linear shape (line 90 tests r_cell against nz); partial theorem for nr < nz; the cubic shape is proved.
* **C65** — Cumulative sums.
* **C66** — Induction over slices.
* **C67** — State machine of the calculator. Expected violation after clear; partial theorem.
* **C68** — Induction over the list of elements.
* **C69** — Last index satisfying a predicate.
* **C70** — Algebra of Twiss parameters; sums of equal weights.
* **C71** — Weighted averages.
* **C72** — np.gradient on the mirrored array.
* **C73** — As C18 with the cubic shape; the exact value of every column, including the two outermost ones.
* **C74** — Algebra of the Boris rotation; uniqueness because the linear system is skew-symmetric.
* **C75** — Capacity of the arrays as part of the bunch. Expected violation when the number of particles grows after the first push; partial theorem for an unchanged number.
* **C76** — State machine of the counter; injectivity of the decimal representation.
* **C77** — Derivatives of the focusing functions (`HasDerivAt`), obtained from the complex ones.
* **C78** — Quadratic parts of the maps over z1, z2 and z1+z2 as polynomials in the focusing functions; identities modulo their relations. For combined-function magnets from C104: both sides solve the same linear equation. Violations for combined-function magnets (missing factor in line 136, formula for J3, limits on the resonance): witnesses.
* **C79** — From C78 and the derivative at the entrance.
* **C80** — State machine of the calculator; sum of lengths up to the first occurrence. Violated for an element object that is used twice: witness.
* **C81** — From C34 and C36 through the model of `TMElement.track`.
* **C82** — Case analysis of the error paths. Violated for the base class `TMElement` with a progress bar (the method that describes the element raises NotImplementedError): witness.
* **C83** — Violated: `backtrack` changes only the recorded distances, not the map. Theorem that the particles do not depend on the option, and a witness.
* **C84** — Fold over elements. Violated for several bunches: the lists of the elements are concatenated, not the outputs per bunch.
* **C85** — Algebra of the library fields of `Verif.Fields` with the constants computed before gathering; Lorentz force as specification.
* **C86** — `HasDerivAt` of the same fields.
* **C87** — The tridiagonal rows rewritten as a difference equation, with separately specified difference operators and their exactness.
* **C88** — Strict diagonal dominance bounds the elimination coefficients by one (induction).
* **C89** — `HasDerivAt` in radius and distance.
* **C90** — Ghost log of solver uses; invariant over all call sequences.
* **C91** — Recurrences from the edge inwards; uniqueness of the boundary value problem of C60.
* **C92** — Induction over slices. Violated for the radial electric and the magnetic field (the beam density enters the integral of the current in any case): witness.
* **C93** — Field algebra.
* **C94** — Composition of the two functions with a lossless file as parameter. Violated for the propagation distance (only xi is written): witness.
* **C95** — `Verif.Plasma.Solver` puts the parts of the quasistatic solver together (column, both pushers, loop over slices, derived fields). Proof: the state before slice k depends on the sources of slices >= k only (induction over the loop), and later slices do not write into the rows of earlier ones.
* **C96** — Arrays as an argument of the model; the result does not mention them.
* **C97** — Difference operators along different axes commute.
* **C98** — Invariant that radii are non-negative; bounds of the interpolation (C13); progress of the restart loop (C60).
* **C99** — Shift equivariance of every step.
* **C100** — The beam field is that of the list of all particles; permutation invariance of the deposition (C19).
* **C101** — Violated for particles outside of the radial extent of the grid (arrays are not overwritten): witness; partial theorem inside.
* **C102** — Exactness for linear fields, value at nodes and on the axis of `gather_sources_qs_baxevanis`.
* **C103** — The step a bunch asked for last is a fold over the log of events (`Cfg.asked`); invariant of the loop.
* **C104** — Derivatives of the coefficient functions row by row; polynomial identities modulo the relations between them. Violated by J3, by Jf and on the resonance 5 k1 + h² = 0: witnesses in the form of C78.
* **C105** — Order-free specification (cell of a particle, rank, linear interpolation) of `calculate_psi_and_derivatives_at_particles` and `calculate_b_theta_at_particles`; the sorted recurrences are shown to compute it. Missing: a parabolic profile with particles beyond the column (wrong, see C59), equal radii.
* **C106** — Field identities; derivative of the current along a trajectory.
* **C107** — `calculate_and_deposit_plasma_column` as a whole, from C105, C61, C19 and C68.
* **C108** — Discrete gradients commute; partial sums of the current.
* **C109** — `Diag.write` and `_get_openpmd_diag_data`; the beamline recursion with diagnostics passed in.
* **C110** — Laguerre's equation from the coefficients; the additional Gouy phase is (conj q / q)^p; sums of solutions.
* **C111** — Moments of the Gaussian and the normalisation of Laguerre polynomials (finite differences of binomial coefficients).
* **C112** — Binomial inversion; the sum of modes is a continuous function of 1/(1 + (z/z_R)^2).
* **C113** — All terms of the kernel on a straight path cancel (long range) or the logarithms of equal arguments cancel (short range); `nearest` finds the points of the trajectory that end the steps.
* **C114** — `delay` grows along a path (triangle inequality, chord not longer than arc); the inverse of the delay on a line; antiderivative of the interaction and the fundamental theorem of calculus.
* **C115** — Invariance of histogram, bin centres and kernel density estimate.
* **C116** — The kernel depends on scalar products of differences of positions and tangents up to the point (`Congruent`); the trajectory of the mirrored beamline is the mirrored trajectory.
* **C117** — `np.convolve` with the reversed kernel is a sum over the bins behind.
* **C118** — `Subgrid`: both meshes in the same box, bilinear interpolation with extrapolation below the first radial node; induction over the steps for the subgrid of equal size.
* **C119** — `FieldElement.track` with the bunches of C20-C26 in the loop of C01-C08: outputs are obtained by replaying the pushes, which tile the time up to each output; pushes compose as a flow (distance, drift).
* **C120** — `Tracker.corr_tracking`: a simulation relation between two runs of the tracker that is preserved by every push, update and output; the runs pick different objects first, but relate after each common one.
* **C121** — equivariance of the pushers, invariance of the fields and of what the solvers see of a bunch, then `Tracker.corr_tracking` with the relation "turned".
* **C122** — `Stage.Wake` puts wakefield, laser, density and tracking together; the updates in the log of the tracker are those of `NumericalField.update` at equal distances (C05, C09), the bunches at each of them are the replay of the pushes before (`Tracker.update_lag`).
* **C123** — The envelope solvers are homogeneous (`Laser.Scale`); the wakefield models see the intensity only; a simulation relation between the two runs (`FieldElement.track_alike`).
* **C124** — Homogeneity for complex factors without `use_phase`. Violated with `use_phase=True` (the phases of the two ghost rows in front of the grid are those of 0, so the phase differences there depend on the absolute phase): witness on a grid of 2 x 3 nodes.
* **C125** — causality of the models (C66, C95) as a property of the fields that particles feel (`Wake.Causal`), the points at which the pushers evaluate the fields (`Push.borisStep_ahead`, `Push.classicalRK4_ahead`) and a simulation relation between the runs with and without the bunches behind, in the scheduling of the tracker (`FieldElement.track_ahead`). With laser evolution there is no such statement for the cubic shape: each update carries a disturbance of the susceptibility forward by one slice.
* **C126** — open light cones can be concatenated (`Push.Slow.trans`); each step of the pushers stays inside; the pushes before each output tile the time (`Tracker.worlds_between`).
* **C127** — double summation by parts; the kernel and the line charge are zero outside of their arrays.
* **C128** — the parameters of the solver differ in the number of steps only; induction over the substeps.
* **C129** — `Interp.gather_node` for the box of the wakefield; the positions of the other parts are compared with the same two functions `nodeXi`, `nodeR`.
* **C130** — relational simulation of two trackings on different time scales (`Tracker/Scaled`), with scaling lemmas for the pushers (`Push/Scaled`), the bunches and the gathering (`Tracker/Similar`), the envelope solver (`Laser/Similar`) and both plasma models. The laws of the two `aptools` functions (skin depth ∝ n^(-1/2), wave-breaking field ∝ n^(1/2)) and the scale invariance of the single-precision comparison of times are hypotheses.
* **C131** — a reader's positions (offset, position inside a cell, spacing) against `Wake.nodeR`/`nodeXi` and `felt_node` (C129).
* **C132** — Violated for the mesh `a` (declared a vector potential, holds the normalised envelope): witness with `m_e c / e = 3/2`. Partial: dimensions of the other meshes.
* **C133** — `Tracker/Split`: the run of the whole stage after as many iterations as the first part takes is in the final state of the first part (`run_part`), and from there simulates the second part with clocks shifted (`later_run`, `split_tracking`); `Stage/Split`: the pushers, the plasma models behind the cut (`behind_quasi`, `behind_cold`) and a pulse that was already used (`Setup.reuse`).
* **C134** — Violated: `reuse_history` (the updates of the second tracking continue those of the first, as in a longer stage), witness with density `1 + z`: at the end 7/2 instead of 2, and five steps of the laser instead of two. Partial: uniform plasma, no evolution of the laser (simulation between two trackings whose wakefields differ in their clocks only).
* **C135** — `Push/Converge`: the motion is bounded and Lipschitz (`motion_bound`, `motion_near`), one step of each pusher differs from an Euler step by `C dt^2` (`rk4_consistent`, `boris_consistent`), and so does the exact motion (mean value inequality). `Tracker/Converge`: the error bound is an invariant of all pushes (`replay_inv`). The exact solution is a hypothesis here; C145 proves that it exists. No numerical fields, no ballistic injection.
* **C136** — `Stage.cold_charge` adds up the beam density of the cold fluid model, `Stage.quasi_charge` states the beam field of the quasistatic model with `μ_0`; `Stage.beams_agree` compares the two.
* **C137** — `ColdFluid.uniform_current_partial` gives the exact factor `1 + (Δr/2r)²` of the field in the cold fluid model, `ColdFluid.axis_field` and `axis_field_violated` the factor 2 at the first node for every cell size; `Plasma.uniform_beam` states that the beam field of the quasistatic model is exact there, and `Stage.cold_beam_part` that this is the only node at which the beams act differently in the two models.
* **C138** — The functions of aptools are parameters (`Diag.Stats`). `Diag.list_items` and `list_fails` for lists, `analyze_values` gives every key, `exchange_planes` the symmetry.
* **C139** — Violated: `Diag.read_saved_violated` (the attribute `value` of data sets does not exist from h5py 3.0 on); `read_saved_partial` for older versions, `keys_nodup` for the dictionaries of the analysis.
* **C140** — the loop of the tracker over times that may be `nan` is the exact loop if there is no `nan`, so that tracking with numbers and `'auto'` ends; with `None` for one bunch it is still running after any number of iterations.
* **C141** — `Stage/Args`: exactly which arguments make a stage (`stage_accepts`) and what its fields are; exactly which arguments define the density of a ramp (`ramp_defined`). Violated: integers, `'blowout'`, `'inverse square'`, a decay length without the density at the top, functions that return a number.
* **C142** — `Stage/Args`, cases of the constructor.
* **C143** — `Base/Order`: a step that is the midpoint rule up to `O(h^3)` has a local error `O(h^3)` (`midpoint_local`, `midpoint_step`). `Push/Order`: the Boris step is the midpoint rule with the mean of both momenta up to `O(h^3)` (`boris_midpoint`), so `boris_order`. `Tracker/Order`: the bound is an invariant of all pushes (`track_error`). The fields are given functions of time and position on the whole space; numerical fields and ballistic injection are not covered.
* **C144** — `Base/Order`: the classical Runge-Kutta step applied to any vector field has a local error `O(h^5)` along a solution with a Lipschitz fifth derivative (`rk4_local`, by Taylor expansion of the composed stages, without coordinates), and is stable (`rk4_stable`). `Push/Order`: the equations of motion as a vector field on `R^6`, the solution has as many derivatives as the fields (`curve_of_flow`), `rk4_order`. `Tracker/Order`: as C143.
* **C145** — `Push/Exact`: the fields are extended from the reachable region to bounded Lipschitz fields (`clamp`), Picard-Lindelöf gives a solution, and speeds below `c` keep it in the region (`trajectory_exists`); Gronwall gives uniqueness. `Tracker/Order`: `track_limit`, `pushers_agree`.
* **C146** — the envelope solvers sweep from the front to the back and phase differences are local, so the envelope ahead depends on the susceptibility ahead only; with the linear shape a plasma column does not write ahead of its slice (the cubic shape reaches one slice forward, so that with it a disturbance may move forward by one slice per update; this case is not covered). A finer longitudinal laser grid would interpolate between a slice and the next and is excluded (`Laser/Ahead.lean`, `Plasma/Ahead.lean`, `Stage/CausalLaser.lean`).
* **C147** — the cold fluid model converges to the exact one-dimensional nonlinear wake: second order in the slice length for a laser, first order for a beam (`Plasma/ColdFluidOrder.lean`).
* **C148** — quasistatic plasma in front of every driver: the transverse field in the first slice is limited by the particle spacing (`Plasma/Quiet.lean`); it is not zero (violated).
* **C149** — magnets without CSR do not change the energy of any particle, at the end and in all outputs (Element/Moments)
* **C150** — first-order tracking without CSR keeps the normalised rms emittance: in y always, in the bend plane without bend or without energy spread (Element/Moments)
* **C151** — lenses without wakefields and field quadrupoles do no work over a whole tracking with the Boris pusher (Stage/Invariants)
* **C152** — the angular momentum of every particle about the axis is conserved in plasma stages with the Boris pusher (Stage/Invariants)
* **C153** — second-order accuracy of gathering and regridding for smooth fields (`Interp/Accuracy`): chord bound by convexity, lifted to complex envelopes by duality
* **C154** — Liouville's theorem for the numerical trajectories: the Boris step is a composition of shears and of a momentum rotation with unit Jacobian (`Push/Volume.lean`), and so is the tracking through an element (`Tracker/Volume.lean`).
* **C155** — **violated** for species other than electrons: the beta function is calculated from energy, density and gradient only, so whatever the external function is, of two species with different masses at most one is matched (`BunchGen/Matched.lean`); for electrons the bunch keeps its size.
* **C156** — a stuttering simulation between the two trackings: the second one lags behind by pushes that come before the next field update or output, and catches up there (`Tracker/Regroup.lean`); `Stage/Regroup.lean` shows that both plasma models depend on the charged particles only.
* **C157** — without pushing the bunches before the outputs, the number of outputs does not influence the bunches, fields and the outputs at common distances.
* **C158** — mirror symmetry of beamlines, with CSR and to second order (`Beamline/Symmetry.lean`).
* **C159** — invariance of beamlines under longitudinal shifts of the bunch (`Beamline/Symmetry.lean`).
* **C160** — rotational symmetry of drifts, quadrupoles and sextupoles (`Element/Turned.lean`).
* **C161** — continuity of the transfer maps in the strengths (`TransferMatrix/Continuity.lean`).
* **C162** — superposition of laser pulses in a given plasma: `Laser/Superpose.lean`.  Fails for `use_phase=True` (the default): the phase differences of the pulse on axis enter the coefficients at all radii.
* **C163** — combination of the closed form of the second-order map of a drift (Element/Free.lean) with the exact straight flight that the pushers give without fields (Tracker/FieldElement.lean); estimates of the expansion of the velocity in slope, energy deviation and 1/(g²-1).
* **C164** — Taylor estimates for the difference quotients in time, along z (with the phase taken out) and in r (using that the field is even, so that the 1/r term stays bounded), applied to the equations that C87 derives for the levels of the solver (Laser/Truncation.lean).
* **C165** — Behind the drivers the cold-fluid wave keeps its energy (`Plasma/ColdFluidEnergy.lean`): the energy of the exact wave is constant, and fields and potential of the model are close to it by C147.
* **C166** — Weak drivers excite the linear wake, and their wakes superpose (`Plasma/ColdFluidLinear.lean`): existence of the exact wake of a weak driver by the theorem of Picard and Lindelöf, distance from the linear one by Grönwall's inequality, and C147 for the discretization.
* **C167** — **violated** for the type of a ramp (anything but `upramp` is a downramp), the polarization (anything but `linear` acts as circular), the type of a phase space matrix (no coordinates) and, without bunches, the shape of the particles (the plasma has neither density nor susceptibility); the other options are checked (`Stage/Options.lean`).
* **C168** — A quadrupole focuses alike as magnet (transfer matrix) and as field (pusher), up to the orders that the maps leave out (Element/QuadPath, Element/FieldQuad; Grönwall's inequality for exact paths in the field).
* **C169** — `Stage/Betatron`: the exact motion in a radial linear force (magnetic in the lens, where the energy is conserved; electric in the channel, where it changes by terms of second order in `ε`) is compared with a harmonic oscillator as in C168 (`lens_path`, `channel_path`), and the outputs with the exact motion by C143 and C144 (`channel_of_path`). The element is any field element with these fields (`Through`); ballistic injection is not covered.
* **C170** — `Stage/Acceleration`: both steps add a mean of the forces at the evaluated points (`boris_gain`, `rk4_gain`), which adds up along all pushes (`track_rel`). Ballistic injection and wakefields on a grid are not covered (in these, particles exactly on the axis raise an error, C13).
* **C171** — deposition keeps the sign of the charge also with the Ruyten correction; enclosed charge of a beam grows with the radius (`Deposition/Positive.lean`).
* **C172** — work of the electric field is the only change of energy with the Boris pusher; bound of the energy gain over a whole element (`Stage/Work.lean`).
* **C173** — particles behind or beside the box drift to the end of the stage, particles in front until the box reaches them (`Stage/Lost.lean`).
* **C174** — plasma channels: the initial plasma of the quasistatic solver has the density `n (1 + p r²)` in SI units, ring by ring and within every ring boundary, with the exact second-order error; accepted kinds of the coefficient (`Stage/Channel.lean`).
* **C175** — pulses from openPMD files: the value at each grid point in terms of the profile, independence of the position of the box, bounds for the smoothing factor (`Laser/FromFile.lean`). What `lasy` does is a parameter; that it samples the profile at equally spaced points is a hypothesis.
* **C176** — unconditional stability of the centred laser solver by an energy estimate (`Laser/Stability.lean`). Expected to hold for the discretised equation; the last row of the tridiagonal system (C48) leaves an edge term, and a coarse grid on which the envelope grows without limit is given (`Laser/Unstable.lean`).
* **C177** — stages depend on the bunches only through the distribution of charge; splitting of macroparticles (`Stage/Macroparticles.lean`). Exact arithmetic.
* **C178** — error estimate of the centred laser solver from its consistency (C164) and its energy estimate (C176) (`Laser/Convergence.lean`). Conditional on the computed values at the edge of the grid, because of C48; without use of the phase.
* **C179** — accuracy of the ponderomotive force at the plasma particles (`Plasma/Ponderomotive`): differences at the nodes (`node_gradient`), nearness of interpolated arrays (`cellInterp_close`) and the chord bound of C153
* **C180** — the origin of the longitudinal coordinate is irrelevant for plasma stages (`Stage/Moved.lean`, with the tracking of two elements in lockstep in `Tracker/Lockstep.lean`).
* **C181** — `Plasma/Cavity.lean`: between the rows of `Slice` and `gridLoop` without enclosed rings the potential is that of the ions, a parabola in the radius whose finite differences are exact; the bilinear gather reproduces a linear field, also below the first node where it uses the mirrored one.
* **C182** — `Stage/Species.lean`: pushers and `stageDt`/`quadDt` read charge and mass only through their ratio, wakefields only the distribution of charge (`Wake.Kinetic`, C177); lockstep of the two trackings (`Tracker/Lockstep.lean`).
* **C183** — the deposited density is continuous in the particle positions (violated by the linear shape on grids at least as wide as long, because of line 120).
* **C184** — gathered fields are continuous in the position of the particle and extend continuously to the axis.
* **C185** — outputs of elements with given fields are smooth functions of the initial coordinates, invertible with the Boris pusher.
* **C186** — particles in active plasma lenses never leave their initial betatron amplitude, in however many steps (a modified energy is conserved exactly by Boris steps; which steps are shortened follows from the tracker).
* **C187** — outputs in fields within e of smooth ones differ from the exact trajectory by at most C times the time step plus e; the fields of the element need not be continuous.
* **C188** — the unused function for the potential and its derivatives at given radii is right only if the last particle in memory is the outermost one.
* **C189** — in uniform magnetic fields both pushers keep the relation of momentum and position of the exact helix; with the Boris pusher particles stay on their circle for every step.
* **C190** — Positions and gathered laser fields stay non-negative along the loop over the slices, so all weights are ordered; the deposition is linear and keeps signs.
* **C191** — Follows from the convergence of the potential (C147); violated on slices that are too long for the driver (the Runge-Kutta step jumps over the singularity of the equation).
* **C192** — Reflections at the axis are mirror images (C63), so the runs are the textbook methods on the state of all particles; local error from Taylor polynomials, stability from the Lipschitz constant of the smooth fields in a neighbourhood that the run does not leave. For Adams-Bashforth the plasma must be at rest over the first slices: the history begins with zeros, otherwise the error is of first order (proved with a particle in constant fields).
* **C193** — `Verif/Plasma/Memory.lean` models the solver with numbered arrays in one memory, allocated in the order of the code and passed by position; `Verif/Plasma/MemoryProps.lean` proves that its fields are those of `Verif/Plasma/Solver.lean`, slice by slice (refinement by a view of the memory as the state of the functional model), for every initial content of the memory.
* **C194** — `Verif/Push/Memory.lean` models bunches as references to numbered arrays, with the arrays preallocated on first use, and both pushers statement by statement on one memory; `Verif/Push/MemoryProps.lean` proves by induction over the calls that separate bunches stay separate and behave like values, and that bunches made from the same arrays do not.
* **C195** — the loops of the deposition with a rounding after each operation; charge and array bounds follow from the relative error of the rounding alone (`Deposition/Rounding.lean`, `Deposition/RoundingProps.lean`).
* **C196** — the gathering functions with a rounding after each operation: rounding of the weights is bounded directly, rounding of the position by the Lipschitz constant of the bilinear interpolation (`Interp/Rounding.lean`, `Interp/RoundingProps.lean`).
* **C197** — the Boris pusher with a rounding after each operation (`Push/Rounding.lean`); the rounded rotation is an exact rotation by the rounded vector `t` up to errors proportional to the momentum, because `|s| (1 + |t|)` is bounded (`Push/RoundingProps.lean`).
* **C198** — `Push/RoundingStep.lean`: the exact rotation is Lipschitz in the momentum with a constant that does not depend on the field (`rotX_lip`), and the rounded rotation is an exact one up to errors proportional to the momentum.
* **C199** — Tracking with rounding after every operation of the Boris pusher and of the clock: the error to the exact trajectory is at most a constant times (largest step + number of steps × unit of rounding) (`Tracker/Rounding.lean`).
* **C200** — Rounding in the coefficients of the Ruyten correction: error at most 200 n² units of rounding, coefficients at most one, and charge conservation with them (`Deposition/RoundingCoef.lean`).
* **C201** — Rounding in the deposition of the plasma: weight on the grid, writes within the array and next to the slice (`Plasma/RoundingDeposit.lean`).
* **C202** — Rounding in the tracking loop: number and times of the snapshots; the last one can be missing (`Tracker/RoundingLoop.lean`).
* **C203** — The theorems about rounding with IEEE 754 numbers of 64 bits (`Base/Ieee.lean`, `Double.lean`).
* **C204** — Rounding in the tracking loop: contiguous pushes, times of field updates, distance of the returned particle from its trajectory (`Tracker/RoundingSchedule.lean`).
* **C205** — A number that decreases with each iteration: the steps left for the outputs, each worth all the steps the other objects can make in between, since the forced pushes can move a bunch back. The cut of the last step leaves at least a quarter of a unit of single precision. `Tracker/RoundingEnds.lean`.
* **C206** — Invariant: a bunch that has been pushed is at the final time up to the resolution of the cast, or its next time is, after the cast, not beyond it; at the end of the loop the second is impossible (`Tracker/RoundingEnds.lean`).
