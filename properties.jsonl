{"id": "C01", "title": "Every bunch ends exactly at the final time", "statement": "When Tracker.do_tracking returns, every bunch has been pushed for a total time equal to t_final, no more and no less (so its propagation distance has grown by exactly c*t_final).", "quantifier": "for every number of bunches, fields and diagnostics, every positive constant or adaptive time step, every t_final > 0", "why_tests_cant": "the last step of each bunch is cut depending on how all the clocks interleave; a test covers a handful of step ratios, the claim is about every ratio and every adaptive step history", "anchors": ["wake_t/tracking/tracker.py:Tracker.do_tracking", "wake_t/tracking/tracker.py:Tracker.evolve_bunch", "wake_t/particles/particle_bunch.py:ParticleBunch.evolve"]}
{"id": "C02", "title": "Bunch pushes tile the time axis", "statement": "The successive pushes of one bunch are contiguous: the start time handed to the pusher is always the end time of the previous push of this bunch (the first starts at 0), whichever mix of own steps and diagnostics-triggered steps produced them; no interval is skipped or pushed twice.", "quantifier": "for every schedule of bunches, fields and diagnostics and every adaptive step function", "why_tests_cant": "gaps appear only for particular interleavings of own and diagnostics steps", "anchors": ["wake_t/tracking/tracker.py:Tracker.do_tracking", "wake_t/tracking/tracker.py:Tracker.evolve_bunch"]}
{"id": "C03", "title": "Events happen in time order and never after the end", "statement": "The sequence of events (bunch pushes, field updates, diagnostics) performed by a tracking is in non-decreasing time order and none of them happens later than t_final (times compared as the code compares them, in single precision).", "quantifier": "for every set of tracked objects, all positive steps and every monotone single-precision rounding", "why_tests_cant": "order of events depends on the whole history of floating point comparisons", "anchors": ["wake_t/tracking/tracker.py:Tracker.do_tracking"]}
{"id": "C04", "title": "Number, time and synchronisation of the snapshots", "statement": "A tracking with n_diags >= 1 stores, for every bunch, n_diags + 1 snapshots: the k-th is taken at time k*t_final/n_diags, and (with push_bunches_before_diags) every bunch has at that moment been pushed to exactly this time.", "quantifier": "for every n_diags >= 1, every number of bunches and fields, every time step choice", "why_tests_cant": "needs every interleaving of diagnostics with bunch steps", "anchors": ["wake_t/tracking/tracker.py:Tracker.do_tracking", "wake_t/tracking/tracker.py:Tracker.generate_diagnostics"]}
{"id": "C05", "title": "Field update schedule", "statement": "A numerical field with update period dt is calculated once before the first push and then exactly at the times k*dt that do not exceed t_final, i.e. floor(t_final/dt) further times; the internal time of a field that was not used in an earlier tracking always equals the tracking time of the update, at which its properties are initialized (first update) or evolved (later ones) and the field is calculated, with the bunches as they are then.", "quantifier": "for every number of fields and bunches, all positive dt and t_final", "why_tests_cant": "off-by-one updates show up only at particular ratios t_final/dt", "anchors": ["wake_t/tracking/tracker.py:Tracker.do_tracking", "wake_t/fields/numerical_field.py:NumericalField.update"]}
{"id": "C06", "title": "Tracking always terminates", "statement": "Tracker.do_tracking stops after a number of iterations bounded by a function of t_final and the smallest step, provided all time steps (constant, adaptive, field, diagnostics) are bounded below by a positive number; with a zero time step it never stops.", "quantifier": "for every configuration and every adaptive step function bounded below", "why_tests_cant": "termination cannot be tested; a shrinking last step could repeat for ever", "anchors": ["wake_t/tracking/tracker.py:Tracker.do_tracking", "wake_t/tracking/tracker.py:Tracker.evolve_bunch"]}
{"id": "C07", "title": "Same-time events: bunches, then fields, then diagnostics", "statement": "If several objects are due at the same time, bunches are pushed before the fields are recalculated and both happen before the diagnostics are written, so a snapshot at a field update time sees the updated field and pushed bunches.", "quantifier": "for every set of objects and every coincidence of times", "why_tests_cant": "ties depend on which of the clocks coincide after single-precision rounding", "anchors": ["wake_t/tracking/tracker.py:Tracker.do_tracking"]}
{"id": "C08", "title": "Tracking without diagnostics", "statement": "A tracking with n_diags=0 (the default) evolves the bunches and returns normally.", "quantifier": "for every tracker with n_diags = 0", "why_tests_cant": "the default value is never used by the library itself", "anchors": ["wake_t/tracking/tracker.py:Tracker.__init__", "wake_t/tracking/tracker.py:Tracker.generate_diagnostics", "wake_t/tracking/tracker.py:Tracker.do_tracking"]}
{"id": "C09", "title": "Even field updates only ever shrink the period", "statement": "With force_even_updates, adjust_dt replaces the update period by a value that is not larger than the requested one, such that t_final is an exact integer multiple of it, with the smallest possible number of updates; applying it twice changes nothing; without the flag the period is untouched.", "quantifier": "for every positive t_final and dt_update", "why_tests_cant": "ceil boundary behaviour at exact multiples", "anchors": ["wake_t/fields/numerical_field.py:NumericalField.adjust_dt"]}
{"id": "C10", "title": "Fields superpose", "statement": "The fields a particle feels are the sum of the contributions of all the fields in the list, independent of their order and of the previous contents of the field arrays.", "quantifier": "for every list of library fields, every particle position", "why_tests_cant": "requires every ordering of every mix of field types; fields that assign instead of adding break it only in some orders", "anchors": ["wake_t/fields/gather.py:gather_fields", "wake_t/physics_models/em_fields/linear_b_theta.py", "wake_t/physics_models/em_fields/quadrupole.py", "wake_t/physics_models/plasma_wakefields/simple_blowout.py", "wake_t/physics_models/plasma_wakefields/focusing_blowout.py", "wake_t/particles/interpolation.py:gather_main_fields_cyl_linear"]}
{"id": "C11", "title": "Parallel particle loops do not depend on the schedule", "statement": "The parallel loops over particles (position push, momentum push, field gathering) give the same arrays for every order in which their iterations are executed.", "quantifier": "for every permutation of the iterations and every number of particles", "why_tests_cant": "thread schedules cannot be enumerated by tests", "anchors": ["wake_t/particles/push/boris_pusher.py:push_momentum", "wake_t/particles/push/boris_pusher.py:apply_half_position_push", "wake_t/particles/push/runge_kutta_4.py:calculate_k", "wake_t/fields/gather.py:reset_particle_fields"]}
{"id": "C12", "title": "Regridding is exact for bilinear fields and never overshoots", "statement": "interpolate_rz_field reproduces every field that is bilinear in (z, r) exactly at every new grid point (including points below the first and above the last radial node, where it extrapolates), returns the stored value at grid nodes, never leaves the range of the original values for points inside the original radial nodes, and never reads outside the array for new points inside the box.", "quantifier": "for every grid, every field, every set of new points inside the box", "why_tests_cant": "boundary indices (last node in z, below first radial node) are reached only for special positions", "anchors": ["wake_t/fields/interpolation.py:interpolate_rz_field"]}
{"id": "C13", "title": "Gathered wakefield is consistent with the grid", "statement": "Gathering at a particle (i) gives zero contribution outside the box, (ii) reproduces fields linear in r (E_r, B_theta proportional to r; E_z constant) exactly everywhere off axis inside the box, (iii) commutes with rotations about the axis, (iv) adds to whatever is in the arrays, (v) never reads outside the field arrays.", "quantifier": "for every grid, every particle position off axis", "why_tests_cant": "cell edges, the near-axis cell and the last half cell are measure-zero positions for random tests", "anchors": ["wake_t/particles/interpolation.py:gather_main_fields_cyl_linear", "wake_t/particles/interpolation.py:gather_field_cyl_linear"]}
{"id": "C14", "title": "Deposition conserves charge", "statement": "deposit_3d_distribution (linear and cubic, with and without Ruyten correction) increases the total of the deposition array by exactly the total weight of the particles inside the box; particles outside do not contribute.", "quantifier": "for every particle distribution, every grid size, every weight", "why_tests_cant": "many branches on cell position; a leaking branch is hit only in boundary cells", "anchors": ["wake_t/particles/deposition.py:deposit_3d_distribution_linear", "wake_t/particles/deposition.py:deposit_3d_distribution_cubic"]}
{"id": "C15", "title": "Deposition only touches physical cells", "statement": "All deposited charge lands in physical (non-guard) cells of the grid adjacent to the particle, in the correct longitudinal slices.", "quantifier": "for every particle inside the box and every grid size", "why_tests_cant": "boundary folding is correct or wrong depending on unusual nr/nz combinations", "anchors": ["wake_t/particles/deposition.py:deposit_3d_distribution_linear", "wake_t/particles/deposition.py:deposit_3d_distribution_cubic"]}
{"id": "C16", "title": "Deposition never writes outside the array", "statement": "Every array element accessed by the deposition of a particle inside the box lies within the (nz+4, nr+4) array (numba performs no bounds check, so a violation would be silent memory corruption).", "quantifier": "for every particle position in the box and every nz, nr >= 1", "why_tests_cant": "an out-of-bounds access need not crash a test", "anchors": ["wake_t/particles/deposition.py:deposit_3d_distribution_linear", "wake_t/particles/deposition.py:deposit_3d_distribution_cubic"]}
{"id": "C17", "title": "Deposition preserves the position of the charge", "statement": "For a particle away from the boundaries the charge-weighted mean grid position of its deposited charge equals the particle position (linear and cubic shapes, no Ruyten correction), and all deposited weights are non-negative multiples of its weight.", "quantifier": "for every interior particle position", "why_tests_cant": "algebraic identity over a continuum", "anchors": ["wake_t/particles/deposition.py:deposit_3d_distribution_linear", "wake_t/particles/deposition.py:deposit_3d_distribution_cubic"]}
{"id": "C18", "title": "Ruyten correction makes a uniform density exactly uniform", "statement": "With linear shapes and use_ruyten, depositing a radially uniform charge density over the whole box gives every radial cell exactly its share (its annulus volume), including the first and the last cell.", "quantifier": "for every nr >= 1, every cell", "why_tests_cant": "a statement about an integral over a continuum of particles", "anchors": ["wake_t/particles/deposition.py:deposit_3d_distribution_linear"]}
{"id": "C19", "title": "Deposition does not depend on the particle order", "statement": "Depositing particles in any order, or splitting a bunch into several deposition calls, gives the same array; depositing a particle of weight a+b equals depositing weights a and b.", "quantifier": "for every permutation and split of every bunch", "why_tests_cant": "permutations cannot be enumerated", "anchors": ["wake_t/particles/deposition.py:deposit_3d_distribution_linear", "wake_t/particles/deposition.py:deposit_3d_distribution_cubic"]}
{"id": "C20", "title": "Gathering is the transpose of depositing", "statement": "For particles away from the axis and outer boundaries, sum over particles of weight times gathered field equals sum over the grid of field times deposited charge (linear shape without correction), so deposition and gathering are mutually consistent.", "quantifier": "for every field and every distribution of interior particles", "why_tests_cant": "identity over all fields and positions", "anchors": ["wake_t/particles/deposition.py:deposit_3d_distribution_linear", "wake_t/particles/interpolation.py:gather_field_cyl_linear"]}
{"id": "C21", "title": "Phase space matrices round-trip", "statement": "Setting a bunch from its own 6D matrix, or from its 7-row bunch matrix, leaves all coordinates and weights unchanged; getting after setting returns the matrix that was set.", "quantifier": "for every bunch (any size), any nonzero species charge", "why_tests_cant": "row permutations that cancel on symmetric data are invisible to sample tests", "anchors": ["wake_t/particles/particle_bunch.py:ParticleBunch.get_6D_matrix", "wake_t/particles/particle_bunch.py:ParticleBunch.set_phase_space_from_matrix", "wake_t/particles/particle_bunch.py:ParticleBunch.get_bunch_matrix", "wake_t/particles/particle_bunch.py:ParticleBunch.set_bunch_matrix"]}
{"id": "C22", "title": "Alternative phase space matrix round-trips", "statement": "A bunch built from the matrix and reference energy returned by get_alternative_6D_matrix has the same phase space as the original bunch.", "quantifier": "for every bunch with positive longitudinal momentum", "why_tests_cant": "the mismatch is a factor beta that is 1 within tolerance for relativistic test beams", "anchors": ["wake_t/particles/particle_bunch.py:ParticleBunch.get_alternative_6D_matrix", "wake_t/particles/particle_bunch.py:ParticleBunch.set_phase_space_from_alternative_matrix"]}
{"id": "C23", "title": "A copied bunch behaves like the original", "statement": "ParticleBunch.copy returns a bunch with the same coordinates, weights, species, name, propagation distance and reference orbit, so that evolving the copy gives the same result as evolving the original.", "quantifier": "for every bunch, every field list and step", "why_tests_cant": "attributes that are rarely set (z_injection, tags) are missing in typical tests", "anchors": ["wake_t/particles/particle_bunch.py:ParticleBunch.copy", "wake_t/particles/particle_bunch.py:ParticleBunch.evolve"]}
{"id": "C24", "title": "Charge property is consistent with the weights", "statement": "After assigning q to a bunch the weights are non-negative and reading q back returns the assigned values whenever their sign matches the species charge; in general the absolute values match.", "quantifier": "for every array of charges and every nonzero species charge", "why_tests_cant": "sign combinations", "anchors": ["wake_t/particles/particle_bunch.py:ParticleBunch.q"]}
{"id": "C25", "title": "Repositioning a bunch moves only its centre", "statement": "reposition_xi(c) makes the weighted average of xi equal to c, keeps all distances between particles, and repositioning twice is the same as repositioning once to the last target.", "quantifier": "for every bunch with nonzero total weight, every target", "why_tests_cant": "identity over all distributions", "anchors": ["wake_t/particles/particle_bunch.py:ParticleBunch.reposition_xi"]}
{"id": "C26", "title": "Propagation distance adds up", "statement": "After any sequence of evolve calls the propagation distance of the bunch has grown by c times the sum of the time steps, whatever fields and pusher were used; an unknown pusher raises and changes nothing.", "quantifier": "for every sequence of evolve calls", "why_tests_cant": "history property", "anchors": ["wake_t/particles/particle_bunch.py:ParticleBunch.evolve"]}
{"id": "C27", "title": "Bunch is ballistic until injection", "statement": "As long as the head of the bunch has not reached z_injection the bunch moves in straight lines with constant momentum regardless of the fields present; without z_injection or past it, the fields act.", "quantifier": "for every field list, every bunch and every sequence of steps before injection", "why_tests_cant": "needs all fields and step sequences", "anchors": ["wake_t/particles/particle_bunch.py:ParticleBunch.evolve", "wake_t/particles/push/boris_pusher.py:apply_boris_pusher", "wake_t/particles/push/runge_kutta_4.py:apply_rk4_pusher"]}
{"id": "C28", "title": "A magnetic field does no work in the Boris pusher", "statement": "In a purely magnetic field one Boris step leaves the magnitude of the momentum, hence the energy, of every particle exactly unchanged.", "quantifier": "for every magnetic field value, momentum, time step and species", "why_tests_cant": "tests see energy drift only within tolerance; exactness is algebraic", "anchors": ["wake_t/particles/push/boris_pusher.py:push_momentum"]}
{"id": "C29", "title": "The Boris step is reversible", "statement": "Pushing a bunch by dt and then by -dt in static fields returns every particle to its initial position and momentum.", "quantifier": "for every static field, every momentum and time step", "why_tests_cant": "algebraic identity over all fields", "anchors": ["wake_t/particles/push/boris_pusher.py:apply_boris_pusher"]}
{"id": "C30", "title": "Free particles drift in straight lines, slower than light", "statement": "With no fields both pushers keep the momentum and move the particle by v*dt exactly; xi never increases for positive time (speed stays below c), so no particle overtakes the frame.", "quantifier": "for every particle and time step", "why_tests_cant": "sign conventions and exactness over the continuum", "anchors": ["wake_t/particles/push/boris_pusher.py", "wake_t/particles/push/runge_kutta_4.py"]}
{"id": "C31", "title": "The buffered RK4 implementation is the classical RK4", "statement": "apply_rk4_pusher, which reuses preallocated buffers holding values of previous calls, computes exactly the textbook Runge-Kutta step of the equations of motion in the given fields, independent of the previous contents of all the buffers.", "quantifier": "for every field, every bunch and every previous buffer content", "why_tests_cant": "stale buffer values matter only for particular histories", "anchors": ["wake_t/particles/push/runge_kutta_4.py:apply_rk4_pusher"]}
{"id": "C32", "title": "A push by zero time changes nothing", "statement": "Evolving a bunch by dt=0 (as happens when a diagnostics push coincides with a bunch push) leaves positions, momenta and propagation distance unchanged, for both pushers.", "quantifier": "for every bunch and field list", "why_tests_cant": "coincidence path of the scheduler", "anchors": ["wake_t/particles/particle_bunch.py:ParticleBunch.evolve", "wake_t/particles/push/boris_pusher.py", "wake_t/particles/push/runge_kutta_4.py"]}
{"id": "C33", "title": "Uniform electric field is integrated exactly", "statement": "In a uniform, constant electric field both pushers change the momentum by exactly q*E*dt/(m*c), independent of how the time is divided into steps.", "quantifier": "for every field value, momentum, and every list of time steps", "why_tests_cant": "equality over all subdivisions", "anchors": ["wake_t/particles/push/boris_pusher.py:push_momentum", "wake_t/particles/push/runge_kutta_4.py:apply_rk4_pusher"]}
{"id": "C34", "title": "First-order maps compose", "statement": "The first-order transfer matrix of an element over z1+z2 is the product of the matrices over z2 and z1, and the matrix over zero length is the identity, for drifts, bends, focusing and defocusing quadrupoles alike.", "quantifier": "for every strength k1 (any sign or zero), angle, length, energy and all z1, z2", "why_tests_cant": "trigonometric and hyperbolic branches and the k=0 limits need symbolic treatment", "anchors": ["wake_t/physics_models/beam_optics/transfer_matrices.py:first_order_matrix"]}
{"id": "C35", "title": "First-order maps are symplectic", "statement": "The first-order transfer matrix preserves the symplectic form of the coordinates (x, x', y, y', xi, dp) used by the code and has unit determinant in each transverse plane, so linear transport conserves emittance.", "quantifier": "for every element and every length", "why_tests_cant": "identity over a continuum of parameters", "anchors": ["wake_t/physics_models/beam_optics/transfer_matrices.py:first_order_matrix"]}
{"id": "C36", "title": "Conversion to and from Ocelot coordinates round-trips", "statement": "Converting a beam to the transport-matrix coordinates and back with the same reference energy returns the original phase space, for particles moving forward.", "quantifier": "for every beam with pz >= 0 and reference gamma > 1", "why_tests_cant": "square roots and signs over the continuum", "anchors": ["wake_t/utilities/bunch_manipulation.py:convert_to_ocelot_matrix", "wake_t/utilities/bunch_manipulation.py:convert_from_ocelot_matrix"]}
{"id": "C37", "title": "Frame rotations are rigid and invertible", "statement": "Rotating a beam by an angle and back is the identity; consecutive rotations add their angles; a rotation changes no distance in x-xi, no momentum magnitude, and leaves y, py alone.", "quantifier": "for every beam and all angles", "why_tests_cant": "identity over all angles", "anchors": ["wake_t/utilities/bunch_manipulation.py:rotation_matrix_xz"]}
{"id": "C38", "title": "The number of outputs does not change the physics of an element", "statement": "For first-order tracking through a beamline element without collective effects, the final bunch is the same for every number of output steps n_out.", "quantifier": "for every element, every bunch and every n_out", "why_tests_cant": "requires all n_out; depends on the composition law", "anchors": ["wake_t/beamline_elements/tm_elements.py:TMElement.track", "wake_t/particles/push/transfer_matrix.py:track_with_transfer_map"]}
{"id": "C39", "title": "Outputs of an element are where they should be", "statement": "Tracking through an element with n_out=N returns exactly N bunches, the k-th at path length k*L/N behind the input, the last one at the element end (with and without CSR sub-steps).", "quantifier": "for every N >= 1 and every CSR step", "why_tests_cant": "integer division of steps for all combinations", "anchors": ["wake_t/beamline_elements/tm_elements.py:TMElement.track", "wake_t/beamline_elements/tm_elements.py:TMElement._determine_steps", "wake_t/physics_models/collective_effects/csr.py:CSRCalculator._set_element_steps"]}
{"id": "C40", "title": "The tracked bunch is updated in place", "statement": "After TMElement.track the bunch that was passed in has been advanced to the end of the element, whatever output options were chosen.", "quantifier": "for all combinations of n_out and out_initial", "why_tests_cant": "the combination out_initial with no outputs is not exercised", "anchors": ["wake_t/beamline_elements/tm_elements.py:TMElement.track", "wake_t/beamline_elements/tm_elements.py:TMElement._update_input_bunch"]}
{"id": "C41", "title": "Reference orbit bookkeeping", "statement": "The transverse position and angle of the reference orbit after a sequence of elements depend only on the geometry: splitting an element does not change them, and a symmetric four-dipole chicane returns exactly to the axis with zero angle.", "quantifier": "for every bending angle, dipole length and drift lengths", "why_tests_cant": "closed orbit identity over the continuum", "anchors": ["wake_t/beamline_elements/tm_elements.py:TMElement._create_new_bunch"]}
{"id": "C42", "title": "Elements can be reused", "statement": "Tracking a bunch through an element gives a result that depends only on the bunch and the element settings, not on what was tracked through the element before.", "quantifier": "for every history of uses of the element", "why_tests_cant": "needs a second bunch with a different energy through the same element object", "anchors": ["wake_t/beamline_elements/tm_elements.py:TMElement.track"]}
{"id": "C43", "title": "Second-order drift maps compose", "statement": "The second-order map of a drift over z1+z2 equals the composition of the maps over z1 and z2, so the number of steps does not matter for drifts at second order either.", "quantifier": "for all lengths, energies, particle coordinates", "why_tests_cant": "polynomial identity over a continuum", "anchors": ["wake_t/physics_models/beam_optics/transfer_matrices.py:second_order_matrix", "wake_t/particles/push/transfer_matrix.py:track_with_transfer_map"]}
{"id": "C44", "title": "Beamlines concatenate", "statement": "Tracking through a beamline equals tracking through its elements one after another: outputs are concatenated in order, openPMD iteration numbers are consecutive from 0 over the whole line, and the recorded position advances by the element lengths.", "quantifier": "for every list of elements and every bunch", "why_tests_cant": "lists of any length", "anchors": ["wake_t/beamline_elements/beamline.py:Beamline.track", "wake_t/diagnostics/openpmd_diag.py:OpenPMDDiagnostics"]}
{"id": "C45", "title": "Duplicate species names are rejected before anything is written", "statement": "write_diagnostics raises if and only if two of the bunches have the same name, and in that case it writes nothing and does not consume an iteration number.", "quantifier": "for every list of bunches", "why_tests_cant": "atomicity on the error path", "anchors": ["wake_t/diagnostics/openpmd_diag.py:OpenPMDDiagnostics.write_diagnostics"]}
{"id": "C46", "title": "Density ramps have the advertised end values and are monotonic", "statement": "A plasma ramp profile equals density_top at the plateau end and density_down at position_down, is monotonic and positive in between; an upramp is the mirror image of the downramp of the same length.", "quantifier": "for all densities 0 < density_down < density_top, lengths, positions and the three built-in profiles", "why_tests_cant": "derived decay length formula for all parameters", "anchors": ["wake_t/beamline_elements/plasma_ramp.py:PlasmaRamp", "wake_t/beamline_elements/plasma_ramp.py:inverse_square_profile", "wake_t/beamline_elements/plasma_ramp.py:exponential_profile", "wake_t/beamline_elements/plasma_ramp.py:gaussian_profile"]}
{"id": "C47", "title": "The automatic time step resolves the betatron motion of every particle", "statement": "The automatic step of a plasma stage is at most 1/10 of the inverse maximum betatron frequency of every particle in the bunch, for a bunch moving forward.", "quantifier": "for every bunch and density profile", "why_tests_cant": "extremal particle over all bunches", "anchors": ["wake_t/beamline_elements/plasma_stage.py:PlasmaStage._get_optimized_dt"]}
{"id": "C48", "title": "The tridiagonal solver solves the system", "statement": "The solver used for the laser envelope returns a vector satisfying all equations of the tridiagonal system whenever the elimination pivots are non-zero.", "quantifier": "for every size n >= 3 and all coefficients", "why_tests_cant": "an error confined to the last row is damped by the boundary in physical tests", "anchors": ["wake_t/physics_models/laser/tdma.py:TDMA"]}
{"id": "C49", "title": "Phase unwrapping removes jumps and nothing else", "statement": "The unwrapped phase differs from the input by multiples of the period, keeps the first value, has no jump larger than half a period, and is the input itself if that has no such jump.", "quantifier": "for every sequence of phases and every positive period", "why_tests_cant": "edge case of jumps by exactly half a period", "anchors": ["wake_t/physics_models/laser/utils.py:unwrap"]}
{"id": "C50", "title": "The in-place envelope sweep equals the two-level scheme", "statement": "The envelope solvers, which overwrite the current and previous envelope row by row while sweeping from front to back, produce exactly the result of computing all rows of the new envelope from untouched copies of the two previous ones, and leave the previous envelope in the second array.", "quantifier": "for every grid size, every initial envelope and plasma response, every number of steps", "why_tests_cant": "aliasing errors depend on row positions", "anchors": ["wake_t/physics_models/laser/envelope_solver.py:evolve_envelope", "wake_t/physics_models/laser/envelope_solver_non_centered.py:evolve_envelope_non_centered"]}
{"id": "C51", "title": "Laser grid parameters are fixed once evolution has started", "statement": "After the envelope has been evolved, changing the grid parameters of the laser raises an error; changing only the time step is allowed and restarts the two-level scheme.", "quantifier": "for every sequence of parameter changes and evolutions", "why_tests_cant": "needs all subsets of changed parameters", "anchors": ["wake_t/physics_models/laser/laser_pulse.py:LaserPulse.set_envelope_solver_params", "wake_t/physics_models/laser/laser_pulse.py:LaserPulse.evolve"]}
{"id": "C52", "title": "Adding laser pulses adds their envelopes", "statement": "The sum of laser pulses has as envelope the sum of the envelopes, in any order and grouping, rejects different wavelengths, and keeps the polarization of the pulses.", "quantifier": "for every list of pulses", "why_tests_cant": "attribute lost only for circular polarization", "anchors": ["wake_t/physics_models/laser/laser_pulse.py:SummedPulse"]}
{"id": "C53", "title": "Flattened Gaussian pulses have the requested peak amplitude", "statement": "At focus, on axis and at the pulse centre, the flattened Gaussian pulse of any order N has normalized amplitude exactly a_0.", "quantifier": "for every order N, a_0, w_0", "why_tests_cant": "identity for all N", "anchors": ["wake_t/physics_models/laser/laser_pulse.py:FlattenedGaussianPulse"]}
{"id": "C54", "title": "A Gaussian pulse never exceeds its peak amplitude and diffracts as it should", "statement": "The magnitude of the Gaussian envelope is a_0 at its focus and centre and at most a_0 everywhere else; its transverse size grows as w_0*sqrt(1+(z/z_R)^2) and the power in every transverse plane is conserved during diffraction.", "quantifier": "for every position and all pulse parameters", "why_tests_cant": "continuum of positions", "anchors": ["wake_t/physics_models/laser/laser_pulse.py:GaussianPulse"]}
{"id": "C55", "title": "The laser group velocity is subluminal", "statement": "The group velocity returned for the laser lies in (0, c], equals c exactly in vacuum, and decreases with plasma density.", "quantifier": "for every wavelength and density", "why_tests_cant": "monotonicity over a continuum", "anchors": ["wake_t/physics_models/laser/laser_pulse.py:LaserPulse.get_group_velocity"]}
{"id": "C56", "title": "The plasma column is neutral and regularly spaced", "statement": "The initial plasma particles of the quasistatic solver lie at the centres of equal radial cells, and without parabolic coefficient their total charge equals exactly the ion charge r_max^2/2 of the column.", "quantifier": "for every dr, ppc and plasma radius", "why_tests_cant": "summation identity for all sizes", "anchors": ["wake_t/physics_models/plasma_wakefields/qs_rz_baxevanis/plasma_particles.py:PlasmaParticles"]}
{"id": "C57", "title": "An undisturbed plasma column exerts no radial force on itself", "statement": "For the initial, uniform plasma column the radial derivative of the wake potential computed at the particles is exactly zero, for every particle.", "quantifier": "for every number of particles and spacing", "why_tests_cant": "exact cancellation for all sizes", "anchors": ["wake_t/physics_models/plasma_wakefields/qs_rz_baxevanis/psi_and_derivatives.py:calculate_psi_and_derivatives_at_particles"]}
{"id": "C58", "title": "The wake potential on the grid is the direct sum over enclosed particles", "statement": "calculate_psi, which walks the sorted particles incrementally, gives at every radius the closed-form sum over all particles inside that radius plus the ion contribution, minus the value at the outer boundary; the result does not depend on the order of the particles.", "quantifier": "for every particle set, every non-decreasing list of radii", "why_tests_cant": "incremental search is wrong only for special coincidences of radii", "anchors": ["wake_t/physics_models/plasma_wakefields/qs_rz_baxevanis/psi_and_derivatives.py:calculate_psi"]}
{"id": "C59", "title": "The radial derivative of the potential is the derivative of the potential", "statement": "The functions for the radial derivative and the longitudinal derivative of the wake potential are the true derivatives of the potential (inside and outside the plasma column), and the potential is continuous across the column edge.", "quantifier": "for all radii, charges, parabolic coefficients and column radii", "why_tests_cant": "a wrong power of r_max is invisible for a uniform plasma", "anchors": ["wake_t/physics_models/plasma_wakefields/qs_rz_baxevanis/psi_and_derivatives.py:delta_psi_eq", "wake_t/physics_models/plasma_wakefields/qs_rz_baxevanis/psi_and_derivatives.py:dr_psi_eq", "wake_t/physics_models/plasma_wakefields/qs_rz_baxevanis/psi_and_derivatives.py:calculate_psi_and_derivatives_at_particles"]}
{"id": "C60", "title": "The plasma magnetic field coefficients solve the boundary value problem", "statement": "The coefficients of the azimuthal magnetic field satisfy the jump conditions at every plasma particle, are regular on axis and vanish at infinity; the division that fixes the boundary condition never divides by zero; the accuracy-driven restart loop terminates and does not change the exact result.", "quantifier": "for every set of particles with positive charges and radii and wake potential above -1", "why_tests_cant": "the restart points depend on rounding; well-posedness is a theorem about all inputs", "anchors": ["wake_t/physics_models/plasma_wakefields/qs_rz_baxevanis/b_theta.py:calculate_ai_bi_from_axis"]}
{"id": "C61", "title": "Plasma particle energy and momentum are consistent", "statement": "After every update the plasma particles satisfy gamma - pz = 1 + psi and gamma^2 = 1 + pr^2 + a^2 + pz^2, gamma >= 1, and their longitudinal velocity stays below c; after the column update no particle is at or above max_gamma.", "quantifier": "for all potentials above -1, momenta and laser fields", "why_tests_cant": "continuum of states", "anchors": ["wake_t/physics_models/plasma_wakefields/qs_rz_baxevanis/solver.py:update_gamma_and_pz", "wake_t/physics_models/plasma_wakefields/qs_rz_baxevanis/solver.py:calculate_and_deposit_plasma_column"]}
{"id": "C62", "title": "The Adams-Bashforth pusher is fifth order", "statement": "With a full derivative history the AB5 push integrates every polynomial of degree up to five exactly, and the derivative history is shifted so that each push uses the derivatives of the last five slices in order.", "quantifier": "for all polynomials and steps, every number of pushes", "why_tests_cant": "order conditions and history shifts over all lengths", "anchors": ["wake_t/physics_models/plasma_wakefields/qs_rz_baxevanis/plasma_push/ab5.py"]}
{"id": "C63", "title": "Plasma particles are reflected at the axis consistently", "statement": "After each push (AB5 or RK4) every plasma particle has non-negative radius, and reflecting a particle at the axis is equivalent to continuing the motion through the axis (the pushed trajectory of the mirrored state is the mirror of the pushed trajectory).", "quantifier": "for every state and every history", "why_tests_cant": "sign errors in rarely reached branches", "anchors": ["wake_t/physics_models/plasma_wakefields/qs_rz_baxevanis/plasma_push/ab5.py", "wake_t/physics_models/plasma_wakefields/qs_rz_baxevanis/plasma_push/rk4.py"]}
{"id": "C64", "title": "Plasma charge is deposited in its own slice", "statement": "Depositing the plasma column at longitudinal slice i puts the whole charge into slice i (linear shape) of the grid, never into another slice, with total conserved; with the cubic shape slice i gets four sixths and its neighbours one sixth each, so that a plasma that is the same in all slices is deposited without distortion.", "quantifier": "for all particles and grid sizes, including grids with as many or more radial than longitudinal cells", "why_tests_cant": "wrong variable in a bounds test matters only for nr >= nz", "anchors": ["wake_t/physics_models/plasma_wakefields/qs_rz_baxevanis/deposition.py"]}
{"id": "C65", "title": "The beam self-field obeys Ampere's law", "statement": "The azimuthal field of the beam on the grid times the radius equals the deposited charge enclosed within that radius in the slice (half of the local cell counted, a quarter for the cell at the axis); outside the beam it equals the total slice charge; summed over all slices it gives the total weight of the particles in the box; and the fields of several bunches add up.", "quantifier": "for every deposited charge distribution", "why_tests_cant": "identity for all distributions", "anchors": ["wake_t/physics_models/plasma_wakefields/qs_rz_baxevanis/solver.py:calculate_beam_source"]}
{"id": "C66", "title": "Quiet plasma stays quiet and causality holds in the cold-fluid model", "statement": "Without laser and beam the cold-fluid wakefield solver returns identically zero fields; a driver at position xi does not influence the wake potential ahead of it.", "quantifier": "for every grid and every driver", "why_tests_cant": "universal in the driver", "anchors": ["wake_t/physics_models/plasma_wakefields/qs_cold_fluid_1x3p.py:NonLinearColdFluidWakefield._calculate_wakefield"]}
{"id": "C67", "title": "CSR step sizes", "statement": "The CSR step assigned to an element is at most the requested one and divides the output spacing into an integer number of steps; the step returned for an element is the one computed for this element, for every sequence of element additions and clears.", "quantifier": "for every history of lattice operations", "why_tests_cant": "stale state after clear is visible only for specific histories", "anchors": ["wake_t/physics_models/collective_effects/csr.py:CSRCalculator._set_element_steps", "wake_t/physics_models/collective_effects/csr.py:CSRCalculator.get_csr_step", "wake_t/physics_models/collective_effects/csr.py:CSRCalculator.clear"]}
{"id": "C68", "title": "The CSR reference trajectory is a unit-speed curve", "statement": "Along the lattice trajectory the path length increases by exactly the element lengths and the tangent vector keeps unit length, for every sequence of drifts and bends; consecutive elements join continuously.", "quantifier": "for every list of elements", "why_tests_cant": "induction over lattices of any length", "anchors": ["wake_t/physics_models/collective_effects/csr.py:CSRCalculator._calculate_trajectory"]}
{"id": "C69", "title": "The CSR start-index estimate never changes the kernel", "statement": "The estimated start index never exceeds the true one, so skipping the part of the trajectory before it does not change the CSR kernel.", "quantifier": "for every trajectory and every scan of indices", "why_tests_cant": "search heuristic over all trajectories", "anchors": ["wake_t/physics_models/collective_effects/csr.py:CSRCalculator._estimate_start_index"]}
{"id": "C70", "title": "Generated bunches have the requested charge and Twiss parameters", "statement": "Bunches generated from Twiss parameters or sizes carry the requested total charge, and the correlation matrix used for sampling has exactly the requested emittance, beta and alpha (real square roots for all alpha).", "quantifier": "for all Twiss parameters, charges and particle numbers", "why_tests_cant": "statistical tests only check within sampling error", "anchors": ["wake_t/utilities/bunch_generation.py:get_gaussian_bunch_from_twiss", "wake_t/utilities/bunch_generation.py:get_gaussian_bunch_from_size"]}
{"id": "C71", "title": "Loaded bunches are centred", "statement": "A bunch loaded from file has charge-weighted mean xi equal to zero, unchanged relative positions, and (if requested) a propagation distance equal to the stored mean position.", "quantifier": "for every file content with nonzero total charge", "why_tests_cant": "identity over all distributions", "anchors": ["wake_t/utilities/bunch_generation.py:get_from_file"]}
{"id": "C72", "title": "Radial gradient is exact for even quadratic profiles", "statement": "radial_gradient is exact for every profile of the form a + b*r^2 on a cell-centred radial grid (except the outermost node, where it is one-sided) and linear in the field.", "quantifier": "for all coefficients, spacings, numbers of nodes", "why_tests_cant": "edge handling at the axis", "anchors": ["wake_t/utilities/other.py:radial_gradient"]}
{"id": "C73", "title": "Ruyten correction with cubic shapes is exact except at the outer edge", "statement": "With cubic shapes and use_ruyten, depositing a radially uniform charge density over the whole box gives every radial cell exactly its annulus volume, except the two outermost cells, between which dr^2/1920 is displaced outwards; the total is exact.", "quantifier": "for every nr >= 3, every cell, every slice", "why_tests_cant": "an integral over a continuum of particles; the discrepancy of 1/1920 is below the noise of any sampled test", "anchors": ["wake_t/particles/deposition.py:deposit_3d_distribution_cubic"]}
{"id": "C74", "title": "The Boris step is the centred scheme in the mid-step fields", "statement": "In arbitrary fields one Boris step moves the particle by half a drift with its old momentum, changes the momentum to the unique solution of the centred equation p'-p = q dt/(m c) (E + u x B), with the fields felt at the mid-point position and at time t+dt/2 and u the mean velocity, and drifts for the other half with the new momentum.", "quantifier": "for every list of fields (time and position dependent), every bunch, time and time step", "why_tests_cant": "a wrong gathering time or position is of second order and invisible in static or smooth test fields", "anchors": ["wake_t/particles/push/boris_pusher.py:apply_boris_pusher", "wake_t/particles/push/boris_pusher.py:push_momentum"]}
{"id": "C75", "title": "Pushing never leaves the preallocated arrays", "statement": "The pushers access the preallocated field and Runge-Kutta arrays of a bunch only within their bounds, whatever sequence of evolve calls with either pusher is made.", "quantifier": "for every bunch and every sequence of evolve calls and assignments of new phase spaces", "why_tests_cant": "the compiled loops do not check bounds, and the arrays keep the size of the first evolve call when the number of particles is changed afterwards", "anchors": ["wake_t/particles/particle_bunch.py:ParticleBunch.get_field_arrays", "wake_t/particles/particle_bunch.py:ParticleBunch.get_rk4_arrays", "wake_t/particles/particle_bunch.py:ParticleBunch.set_bunch_matrix"]}
{"id": "C76", "title": "Unnamed bunches get different names", "statement": "All bunches created without a name have pairwise different names, however many are created and whatever named bunches and copies are created in between.", "quantifier": "for every sequence of bunch creations and copies", "why_tests_cant": "unbounded sequences with a class-wide counter", "anchors": ["wake_t/particles/particle_bunch.py:ParticleBunch.set_name", "wake_t/particles/particle_bunch.py:ParticleBunch.copy"]}
{"id": "C77", "title": "First-order maps solve the linear equations of motion", "statement": "A particle moved with the first-order matrix of an element follows, along the element, the linear equations of motion of that element: x'' = -(k1+h^2)x + h dp/beta, y'' = k1 y, xi' = h x/beta - dp/(beta gamma)^2, with dp constant and h = theta/L.", "quantifier": "for every element (any sign of k1 and theta), energy, position along the element and particle", "why_tests_cant": "a differential equation over a continuum of parameters; tests compare a few matrices", "anchors": ["wake_t/physics_models/beam_optics/transfer_matrices.py:first_order_matrix"]}
{"id": "C78", "title": "Second-order maps compose up to third order", "statement": "Tracking with second-order maps over z1 and then z2 gives the same as tracking over z1+z2 up to terms of third order in the coordinates, for all elements.", "quantifier": "for every element, energy, all lengths and all particles", "why_tests_cant": "needs the comparison of all 45 coefficients as functions of the length; no test tracks a combined-function magnet in more than one step", "anchors": ["wake_t/physics_models/beam_optics/transfer_matrices.py:second_order_matrix", "wake_t/particles/push/transfer_matrix.py:track_with_transfer_map"]}
{"id": "C79", "title": "Second-order terms solve the equations of motion", "statement": "What second-order tracking adds to first-order tracking is the solution of the equations of motion to second order in the coordinates: zero at the entrance and driven by the quadratic part of the equations evaluated on the linear motion, for bends, quadrupoles, sextupoles and their straight superpositions.", "quantifier": "for every bend without gradients and every straight element, every energy, position and particle", "why_tests_cant": "a differential equation in 45 coefficient functions", "anchors": ["wake_t/physics_models/beam_optics/transfer_matrices.py:second_order_matrix", "wake_t/particles/push/transfer_matrix.py:track_with_transfer_map"]}
{"id": "C80", "title": "CSR kicks are evaluated where the bunch is", "statement": "When CSR effects are computed in an element, the position along the lattice trajectory that is used is the position of the bunch: the lengths of the elements already passed since CSR tracking began plus the distance travelled in the current element.", "quantifier": "for every history of lattice operations and every position in the element", "why_tests_cant": "needs lattices in which an element object is used more than once", "anchors": ["wake_t/physics_models/collective_effects/csr.py:CSRCalculator"]}
{"id": "C81", "title": "Splitting an element does not change tracking", "statement": "Tracking through two shorter elements with the same gradients and curvature gives the same bunch as tracking through the element they were cut from (first order, given reference energy, no collective effects).", "quantifier": "for every linear element, every cut and every bunch", "why_tests_cant": "composition of the whole track method, including coordinate conversion and the reference orbit, for all cuts", "anchors": ["wake_t/beamline_elements/tm_elements.py:TMElement.track"]}
{"id": "C82", "title": "Elements can be tracked with default options", "statement": "TMElement.track with its default options returns for every element class, every positive length and every admissible number of outputs.", "quantifier": "for every element with positive length and n_out None or >= 1", "why_tests_cant": "the base class is not tracked in the tests", "anchors": ["wake_t/beamline_elements/tm_elements.py:TMElement.track"]}
{"id": "C83", "title": "Backtracking undoes tracking", "statement": "Tracking a bunch through an element and then back through the same element with backtrack=True gives the initial bunch.", "quantifier": "for every linear element and every bunch", "why_tests_cant": "no test uses backtrack; holds or fails for all elements at once", "anchors": ["wake_t/beamline_elements/tm_elements.py:TMElement.track"]}
{"id": "C84", "title": "Outputs of a beamline", "statement": "Beamline.track returns all outputs of all elements; for several bunches it returns, as the elements do, one list of outputs per bunch.", "quantifier": "for every list of elements and every number of bunches", "why_tests_cant": "no test tracks several bunches through a beamline with several elements", "anchors": ["wake_t/beamline_elements/beamline.py:Beamline.track", "wake_t/beamline_elements/field_element.py:FieldElement.track"]}
{"id": "C85", "title": "Lenses, quadrupoles and blowouts focus as documented", "statement": "The force on a charge moving with c is q c g (x, y) in a plasma lens of strength g, q c g (x, -y) in a quadrupole, and that of the ion channel of the local density in the blowout models; for negative charges it is the harmonic force with the betatron frequency on which the automatic step is based.", "quantifier": "for every strength, density profile, charge and position", "why_tests_cant": "signs and units for all parameters at once; tests check the size of a bunch in one case", "anchors": ["wake_t/physics_models/em_fields/linear_b_theta.py:LinearBThetaField", "wake_t/physics_models/em_fields/quadrupole.py:QuadrupoleField", "wake_t/physics_models/plasma_wakefields/simple_blowout.py:SimpleBlowoutWakefield", "wake_t/physics_models/plasma_wakefields/focusing_blowout.py:FocusingBlowoutField"]}
{"id": "C86", "title": "Analytical fields satisfy Maxwell's equations", "statement": "The magnetic fields of lens and quadrupole are free of divergence, that of the quadrupole is free of curl and that of the lens has the curl of a uniform current; the transverse electric field of the blowout models satisfies Gauss's law with the local ion density; the blowout fields move with the group velocity of the laser.", "quantifier": "for every strength, density and position", "why_tests_cant": "derivatives over a continuum of positions", "anchors": ["wake_t/physics_models/em_fields/linear_b_theta.py:LinearBThetaField", "wake_t/physics_models/em_fields/quadrupole.py:QuadrupoleField", "wake_t/physics_models/plasma_wakefields/simple_blowout.py:SimpleBlowoutWakefield", "wake_t/physics_models/plasma_wakefields/custom_blowout.py:CustomBlowoutWakefield"]}
{"id": "C87", "title": "The evolved laser envelope satisfies the discretised envelope equation", "statement": "After every step the new, current and previous envelope satisfy the laser envelope equation (radial Laplacian, carrier term, mixed derivative, second time derivative, plasma response) with differences of second order; the longitudinal difference is exact for fields with linear phase and quadratic amplitude, the radial one for A+B r^2; the first step satisfies the equation without the second time derivative.", "quantifier": "for every envelope, plasma response, grid, step and carrier frequency", "why_tests_cant": "coefficients of many terms; a test sees only one combination", "anchors": ["wake_t/physics_models/laser/envelope_solver.py:evolve_envelope", "wake_t/physics_models/laser/envelope_solver_non_centered.py:evolve_envelope_non_centered"]}
{"id": "C88", "title": "The envelope solver never divides by zero", "statement": "For a plasma response that is not negative, no pivot of the tridiagonal elimination vanishes, whatever the envelope and its phase.", "quantifier": "for every envelope, response >= 0, grid spacing and step", "why_tests_cant": "continuum of systems", "anchors": ["wake_t/physics_models/laser/tdma.py:TDMA", "wake_t/physics_models/laser/envelope_solver.py:evolve_envelope"]}
{"id": "C89", "title": "Gaussian pulses solve the paraxial wave equation", "statement": "The envelope of a Gaussian pulse as function of the propagation distance solves the paraxial wave equation with the wave number of the pulse, the equation that the envelope solver reduces to in vacuum.", "quantifier": "for every position and all pulse parameters", "why_tests_cant": "needs derivatives everywhere", "anchors": ["wake_t/physics_models/laser/laser_pulse.py:GaussianPulse"]}
{"id": "C90", "title": "The two-level laser scheme is used only between equal steps", "statement": "In every sequence of parameter changes, initialisations and evolutions the first evolution uses the one-level scheme, and the two-level scheme is used only if the previous evolution had the same step; the one-level scheme does not depend on the previous envelope.", "quantifier": "for every sequence of calls", "why_tests_cant": "unbounded sequences of calls", "anchors": ["wake_t/physics_models/laser/laser_pulse.py:LaserPulse.set_envelope_solver_params", "wake_t/physics_models/laser/laser_pulse.py:LaserPulse.evolve"]}
{"id": "C91", "title": "The two algorithms for the plasma magnetic field agree", "statement": "The algorithm that computes the coefficients of the plasma magnetic field inwards from the edge gives the same coefficients as the one that computes them outwards from the axis, never divides by zero and always ends.", "quantifier": "for every set of particles with positive charges and radii and wake potential above -1, and all restart criteria", "why_tests_cant": "the restart points depend on rounding; all inputs", "anchors": ["wake_t/physics_models/plasma_wakefields/qs_rz_baxevanis/b_theta.py:calculate_ai_bi_from_edge", "wake_t/physics_models/plasma_wakefields/qs_rz_baxevanis/b_theta.py:calculate_ai_bi_from_axis"]}
{"id": "C92", "title": "Beams do not contribute to the fields when beam wakefields are off", "statement": "In the cold-fluid model with beam_wakefields=False the fields, the plasma density and the susceptibility do not depend on the bunches.", "quantifier": "for every beam, laser and grid", "why_tests_cant": "universal in the beam", "anchors": ["wake_t/physics_models/plasma_wakefields/qs_cold_fluid_1x3p.py:NonLinearColdFluidWakefield._calculate_wakefield"]}
{"id": "C93", "title": "The cold fluid satisfies the quasistatic relations", "statement": "The plasma density, susceptibility, energy and momentum of the cold-fluid model satisfy continuity n (1 - v_z) = 1, gamma - u_z = 1 + psi, gamma^2 = 1 + a^2 + u_z^2 and chi = n / gamma in every cell; the fluid is slower than light.", "quantifier": "for every cell with wake potential above -1", "why_tests_cant": "continuum of states", "anchors": ["wake_t/physics_models/plasma_wakefields/qs_cold_fluid_1x3p.py:NonLinearColdFluidWakefield._calculate_wakefield"]}
{"id": "C94", "title": "Saving and loading a bunch is lossless", "statement": "A bunch written with save_bunch_to_file and read back with get_from_file has the same particles (weights, species, transverse positions, momenta, relative longitudinal positions), with openPMD the same name, and with preserve_prop_dist=True the same propagation distance.", "quantifier": "for every bunch with nonzero total weight, both file formats that keep all columns", "why_tests_cant": "universal in the bunch and its history", "anchors": ["wake_t/utilities/bunch_saving.py:save_bunch_to_file", "wake_t/utilities/bunch_generation.py:get_from_file"]}
{"id": "C95", "title": "The quasistatic wakefield is causal", "statement": "Two calculations of the quasistatic wakefield whose lasers agree in slice i and ahead of it, and whose beam particles agree ahead of slice i (less two cells, the reach of the particle shape), give the same E_r and B_theta in slice i and ahead of it, and the same E_z, plasma density and susceptibility from the next slice on. In particular a trailing bunch cannot change the wake ahead of it.", "quantifier": "for every box, every plasma column, every pair of lasers and of sets of bunches, both pushers, every slice and cell", "why_tests_cant": "the fields come out of a nonlinear simulation over many slices; a test can only compare a few pairs of inputs and only up to tolerances", "anchors": ["wake_t/physics_models/plasma_wakefields/qs_rz_baxevanis/solver.py:calculate_wakefields", "wake_t/physics_models/plasma_wakefields/qs_rz_baxevanis/solver.py:calculate_with_ab5", "wake_t/physics_models/plasma_wakefields/qs_rz_baxevanis/solver.py:calculate_with_rk4", "wake_t/physics_models/plasma_wakefields/qs_rz_baxevanis/plasma_push/rk4.py:evolve_plasma_rk4"]}
{"id": "C96", "title": "A field update does not depend on the previous field", "statement": "The arrays of the quasistatic wakefield after an update are a function of the laser, the bunches and the parameters only; what they contained before (on the grid or in guard cells) has no influence.", "quantifier": "for every content of the arrays", "why_tests_cant": "accumulating arrays that are reused; leakage from earlier updates only shows up in particular sequences", "anchors": ["wake_t/fields/rz_wakefield.py:RZWakefield._calculate_field", "wake_t/physics_models/plasma_wakefields/qs_rz_baxevanis/solver.py:calculate_wakefields"]}
{"id": "C97", "title": "Panofsky-Wenzel", "statement": "In the fields computed by the quasistatic solver the longitudinal derivative of E_r - c B_theta equals the radial derivative of E_z exactly at every node, with the derivatives taken by the same finite differences.", "quantifier": "for every laser, beams and plasma column, grids of at least 3 x 3 nodes", "why_tests_cant": "exact identity of the output of a nonlinear simulation, for all inputs", "anchors": ["wake_t/physics_models/plasma_wakefields/qs_rz_baxevanis/solver.py:calculate_wakefields"]}
{"id": "C98", "title": "The quasistatic solver always finishes within its arrays", "statement": "With a known pusher and particle shape the calculation of the quasistatic wakefield ends for every laser, every set of bunches and every density profile, and never reads outside of the source arrays, although plasma particles move freely and may leave the grid; an unknown pusher, or an unknown shape with at least one bunch, is refused with an error.", "quantifier": "for every box of positive size with at least two slices, every plasma, laser, set of bunches", "why_tests_cant": "compiled code without bounds checks and a while loop whose number of iterations depends on the data", "anchors": ["wake_t/physics_models/plasma_wakefields/qs_rz_baxevanis/solver.py:calculate_wakefields", "wake_t/particles/interpolation.py:gather_sources_qs_baxevanis", "wake_t/physics_models/plasma_wakefields/qs_rz_baxevanis/b_theta.py:calculate_ai_bi_from_axis"]}
{"id": "C99", "title": "The origin of the box is irrelevant for the wakefield", "statement": "Shifting xi_min, xi_max and all bunches by the same distance, with the same laser on the grid, gives the same quasistatic wakefield on the grid.", "quantifier": "for every shift and every input", "why_tests_cant": "universal in the shift", "anchors": ["wake_t/physics_models/plasma_wakefields/qs_rz_baxevanis/solver.py:calculate_wakefields"]}
{"id": "C100", "title": "Grouping of beam particles into bunches is irrelevant for the wakefield", "statement": "The quasistatic wakefield depends on the beam particles only: reordering them, splitting a bunch into several, merging bunches or changing their order in the list gives the same fields.", "quantifier": "for every two lists of bunches with the same particles", "why_tests_cant": "universal in the grouping", "anchors": ["wake_t/physics_models/plasma_wakefields/qs_rz_baxevanis/solver.py:calculate_wakefields", "wake_t/physics_models/plasma_wakefields/qs_rz_baxevanis/solver.py:calculate_beam_source"]}
{"id": "C101", "title": "Plasma particles feel the current laser and beam", "statement": "The laser and beam sources that act on a plasma particle in a slice are determined by its radius and by the laser and beam in that slice, not by earlier slices.", "quantifier": "for every plasma particle and slice", "why_tests_cant": "reused arrays that are only overwritten under a condition; visible only for particles that leave the grid", "anchors": ["wake_t/particles/interpolation.py:gather_sources_qs_baxevanis", "wake_t/physics_models/plasma_wakefields/qs_rz_baxevanis/solver.py:calculate_and_deposit_plasma_column"]}
{"id": "C102", "title": "Sources at the plasma particles are those of the grid", "statement": "The laser intensity, its radial gradient and the azimuthal field of the beams felt by a plasma particle inside the box equal the grid values at grid nodes, are exact everywhere (down to the axis) for an intensity independent of r and a gradient and beam field proportional to r, and the gradient and the beam field vanish on the axis.", "quantifier": "for every grid, all arrays, every radius and slice", "why_tests_cant": "sign conventions across the axis only matter for particles within half a cell from the axis", "anchors": ["wake_t/particles/interpolation.py:gather_sources_qs_baxevanis"]}
{"id": "C103", "title": "Length of the steps of a bunch", "statement": "Every push of a bunch that is due by its own clock has exactly the length the bunch asks for right after its previous push (at the start: after the initial field calculation): the fixed step, or the adaptive step evaluated for the bunch and fields of that moment, shortened only as far as needed not to pass t_final. In particular the last, shortened step is never kept for later pushes, and diagnostics in between do not change the step.", "quantifier": "for every number of bunches with fixed or adaptive steps, all fields and diagnostics, every push of a tracking that returns", "why_tests_cant": "depends on the interleaving of clipping, diagnostics-forced pushes and adaptive steps", "anchors": ["wake_t/tracking/tracker.py:Tracker.evolve_bunch", "wake_t/tracking/tracker.py:Tracker.do_tracking"]}
{"id": "C104", "title": "Second-order terms solve the equations of motion in any magnet", "statement": "What second-order tracking adds to first-order tracking in a magnet with curvature, quadrupole and sextupole gradient is the solution of the equations of motion to second order: zero at the entrance and driven by the quadratic part of the equations evaluated on the linear motion.", "quantifier": "for every magnet, every energy, position, particle and coordinate", "why_tests_cant": "a differential equation in 45 coefficient functions of five parameters; the wrong coefficients only show for combined-function magnets, off energy or on a resonance", "anchors": ["wake_t/physics_models/beam_optics/transfer_matrices.py:second_order_matrix", "wake_t/particles/push/transfer_matrix.py:track_with_transfer_map"]}
{"id": "C105", "title": "Fields at plasma particles", "statement": "At every plasma particle, whatever the order of the particles in memory, the solver uses the wakefield potential (zero at the outer boundary), its radial and longitudinal derivative and the plasma magnetic field obtained by linear interpolation of the exact fields of all particles between the ends of the radial cell of the particle, with the limits the code puts on them; energy and longitudinal momentum satisfy the quasistatic invariant and the mass shell condition.", "quantifier": "for every slice of plasma particles with nonnegative weights, and every momentum and source", "why_tests_cant": "depends on the relation between sorted and stored order of the particles, which only shows after particles have crossed", "anchors": ["wake_t/physics_models/plasma_wakefields/qs_rz_baxevanis/psi_and_derivatives.py:calculate_psi_and_derivatives_at_particles", "wake_t/physics_models/plasma_wakefields/qs_rz_baxevanis/b_theta.py:calculate_b_theta_at_particles"]}
{"id": "C106", "title": "Plasma particles obey the Lorentz force", "statement": "The derivatives by which plasma electrons are advanced are the motion under the radial Lorentz force and the ponderomotive force of the laser along zeta = t - z; the coefficients of the equation for the magnetic field are the longitudinal derivative of the radial current of the ring and its longitudinal current.", "quantifier": "for every particle with 1 + psi > 0 and all fields", "why_tests_cant": "sign and factor errors in single terms are hidden when the term is small or the other terms dominate", "anchors": ["wake_t/physics_models/plasma_wakefields/qs_rz_baxevanis/plasma_push/ab5.py:evolve_plasma_ab5", "wake_t/physics_models/plasma_wakefields/qs_rz_baxevanis/b_theta.py:calculate_ai_bi_from_axis"]}
{"id": "C107", "title": "What one slice of plasma adds to the fields", "statement": "One step of the slice loop: particles at or above max_gamma are put at rest, the others keep momenta and energies; the row of the potential is the direct sum over the particles, zero at the outer boundary; the row of the magnetic field solves the boundary value problem of the particles; the totals of density and susceptibility on the grid grow by q/(1-v_z) (divided by gamma for the susceptibility) of every ring inside the box over its cell volume.", "quantifier": "for every column of particles at distinct radii, grid, slice and sources", "why_tests_cant": "the totals and the fields are only visible together, and only for a full column", "anchors": ["wake_t/physics_models/plasma_wakefields/qs_rz_baxevanis/solver.py:calculate_wakefields", "wake_t/physics_models/plasma_wakefields/qs_rz_baxevanis/plasma_particles.py:PlasmaParticles"]}
{"id": "C108", "title": "Force fields of the cold fluid model", "statement": "In the cold fluid wakefield model the longitudinal field and the transverse force field E_r - c B_theta are the differences of one and the same potential, so that the mixed differences agree (Panofsky-Wenzel), and the magnetic field follows from the integral of the current (Ampere).", "quantifier": "for every grid, source and plasma density", "why_tests_cant": "a relation between all components of a two-dimensional field", "anchors": ["wake_t/physics_models/plasma_wakefields/qs_cold_fluid_1x3p.py:NonLinearColdFluidWakefield"]}
{"id": "C109", "title": "Written snapshots contain the laboratory phase space in SI units", "statement": "A bunch written by the diagnostics contains, particle by particle, the positions in the laboratory (position plus offset, which includes the distance travelled in earlier elements), the momenta in kg m/s, and weights, charge and mass of the particles, with the time of the snapshot; diagnostics handed to a further tracking keep their records and continue numbering and position.", "quantifier": "for every bunch, species, time and sequence of elements", "why_tests_cant": "unit factors and offsets that cancel when the same library reads its own file", "anchors": ["wake_t/diagnostics/openpmd_diag.py:OpenPMDDiagnostics", "wake_t/beamline_elements/beamline.py:Beamline.track"]}
{"id": "C110", "title": "Laguerre-Gauss and flattened pulses are exact paraxial solutions", "statement": "The envelope of every Laguerre-Gauss pulse and of every flattened Gaussian pulse, as a function of radius and propagation distance, solves the paraxial wave equation for the wavelength of the pulse in vacuum.", "quantifier": "for every order, all pulse parameters and every longitudinal position", "why_tests_cant": "a differential equation for functions of arbitrary polynomial order; the phase terms are invisible in the intensity near focus", "anchors": ["wake_t/physics_models/laser/laser_pulse.py:LaguerreGaussPulse", "wake_t/physics_models/laser/laser_pulse.py:FlattenedGaussianPulse"]}
{"id": "C111", "title": "The energy of a Laguerre-Gauss pulse does not depend on its order", "statement": "The power of a Laguerre-Gauss pulse through a transverse plane equals that of the Gaussian pulse with the same a_0, w_0 and tau, for every order and every distance from the focus, as documented.", "quantifier": "for every order, all pulse parameters, every slice and propagation distance", "why_tests_cant": "an integral to infinity of a polynomial of arbitrary order", "anchors": ["wake_t/physics_models/laser/laser_pulse.py:LaguerreGaussPulse"]}
{"id": "C112", "title": "Far field of the flattened Gaussian pulse", "statement": "Far from the focus the flattened Gaussian pulse of order N has the documented flat profile: the amplitude at angle theta is that of the Gaussian pulse on axis times exp(-rho) times the first N+1 terms of the series of exp(rho), with rho = (N+1) (pi w_0 theta / lambda)^2.", "quantifier": "for every order, angle and pulse parameters, in the limit of infinite distance", "why_tests_cant": "a limit, and an identity between sums of Laguerre polynomials of arbitrary order", "anchors": ["wake_t/physics_models/laser/laser_pulse.py:FlattenedGaussianPulse"]}
{"id": "C113", "title": "CSR has no effect in a straight beamline", "statement": "In a beamline without bends the CSR calculation changes no particle's energy, for every bunch and at every position, and tracking an element with CSR on gives the same bunch as with CSR off. The calculation raises no exception at the steps at which elements call it.", "quantifier": "for every list of straight elements, every bunch, every n_bins >= 1, every reference energy above rest, all step sizes that fit", "why_tests_cant": "the kernel is a difference of cancelling sums, logarithms and interpolations; tests can only sample beamlines and would need a tolerance", "anchors": ["wake_t/physics_models/collective_effects/csr.py:CSRCalculator.apply_csr", "wake_t/physics_models/collective_effects/csr.py:CSRCalculator._calculate_kernel", "wake_t/beamline_elements/tm_elements.py:TMElement.track"]}
{"id": "C114", "title": "The CSR kernel is the interaction summed over the whole path", "statement": "The integrated kernel at a delay w is the sum over the trajectory of the interaction with the points from which the particle is reached with at least this delay; for delays that reach back before the beamline, the closed form equals the integral of the same interaction along the straight line on which the bunch came in, up to the point of emission.", "quantifier": "for every trajectory of a beamline, every point on it, every bin; the term that the code leaves out for particles almost on the line is stated explicitly", "why_tests_cant": "the closed form with logarithms and arctangents and the sum are different expressions for one integral", "anchors": ["wake_t/physics_models/collective_effects/csr.py:CSRCalculator._calculate_kernel", "wake_t/physics_models/collective_effects/csr.py:CSRCalculator._calculate_kernel_long_range", "wake_t/physics_models/collective_effects/csr.py:CSRCalculator._calculate_kernel_short_range"]}
{"id": "C115", "title": "CSR depends on the bunch only through its line charge", "statement": "The energy change is proportional to the charge of the bunch, does not change when the whole bunch is shifted along the beam, and does not depend on the order in which particles are stored.", "quantifier": "for all bunches, factors, shifts and permutations, at every position of every beamline", "why_tests_cant": "relations between infinitely many pairs of runs; a histogram and a kernel density estimate are in between", "anchors": ["wake_t/physics_models/collective_effects/csr.py:CSRCalculator.apply_csr"]}
{"id": "C116", "title": "CSR depends only on the geometry upstream", "statement": "The energy change at a place in the beamline is the same if all bends bend to the other side, and elements further downstream have no influence on it.", "quantifier": "for all beamlines, bunches, positions at CSR steps", "why_tests_cant": "relations between pairs of beamlines of any length", "anchors": ["wake_t/physics_models/collective_effects/csr.py:CSRCalculator.apply_csr", "wake_t/physics_models/collective_effects/csr.py:CSRCalculator._calculate_trajectory", "wake_t/physics_models/collective_effects/csr.py:CSRCalculator.add_lattice_element"]}
{"id": "C117", "title": "Radiation acts on the particles in front", "statement": "The energy change of a particle depends only on the line charge behind it, up to the width of one bin.", "quantifier": "for all line charges, kernels and particle positions", "why_tests_cant": "holds for every pair of line charges that agree behind the particle", "anchors": ["wake_t/physics_models/collective_effects/csr.py:CSRCalculator.apply_csr"]}
{"id": "C118", "title": "A laser subgrid changes the resolution of the pulse, not the pulse", "statement": "With a subgrid, the envelope seen on the grid of the wakefield agrees with the envelope of the solver at shared nodes and is never larger; bilinear envelopes are carried over exactly; no grid point is left without a value; a subgrid of the size of the grid gives exactly the envelope without subgrid; the plasma susceptibility keeps its bounds when it is carried to the subgrid.", "quantifier": "for all grids, subgrid sizes, pulses, susceptibilities and numbers of steps", "why_tests_cant": "the transfer is done for every node of two grids of arbitrary sizes, and the comparison is between whole evolutions", "anchors": ["wake_t/physics_models/laser/laser_pulse.py:LaserPulse._create_laser_subgrid", "wake_t/physics_models/laser/laser_pulse.py:LaserPulse.initialize_envelope", "wake_t/physics_models/laser/laser_pulse.py:LaserPulse.evolve", "wake_t/physics_models/laser/laser_pulse.py:LaserPulse._update_output_envelope", "wake_t/physics_models/laser/laser_pulse.py:LaserPulse._interpolate_chi_to_subgrid"]}
{"id": "C119", "title": "Tracking through a field element returns the outputs at equal distances", "statement": "`track` on a field element returns one list of n_out + 1 bunches per input bunch (not nested for a single bunch); in entry k the bunch has propagated by k/n_out of the length; without fields every particle has moved in a straight line for that time; fields with forced even updates are updated at equally spaced times up to the end; a list of time steps of the wrong length is an error; otherwise `track` returns.", "quantifier": "for all elements, bunches, fixed or adaptive time steps, pushers, numbers of outputs and fields", "why_tests_cant": "the interleaving of pushes, field updates and outputs is different for every choice of time steps", "anchors": ["wake_t/beamline_elements/field_element.py:FieldElement.track", "wake_t/tracking/tracker.py:Tracker.do_tracking", "wake_t/particles/particle_bunch.py:ParticleBunch.evolve", "wake_t/fields/numerical_field.py:NumericalField.adjust_dt"]}
{"id": "C120", "title": "Bunches in external fields do not disturb each other", "statement": "If the fields of an element do not depend on the bunches (magnets, active lenses, blowout models, laser-driven wakes without beam loading), the outputs of each of several bunches tracked together are those obtained when that bunch is tracked alone with its time step, and the fields end in the same state.", "quantifier": "for all elements with external fields, numbers of bunches, fixed or adaptive time steps, pushers and numbers of outputs", "why_tests_cant": "the order of pushes, updates and outputs depends on all bunches; comparing runs only covers the time steps that are tried", "anchors": ["wake_t/tracking/tracker.py:Tracker.do_tracking", "wake_t/tracking/tracker.py:Tracker.evolve_bunch", "wake_t/beamline_elements/field_element.py:FieldElement.track"]}
{"id": "C121", "title": "Tracking commutes with rotations about the axis and reflections", "statement": "In an element whose external fields are symmetric, tracking the bunches after rotating all of them by the same angle about the axis, or reflecting them in the same plane through it, gives the outputs of the original tracking rotated or reflected in the same way, and leaves fields and laser in the same state. Active lenses, the blowout models and the wakefields on a grid (quasistatic or cold fluid, with beam loading, laser and adaptive time steps) allow every angle, quadrupoles half a turn and reflections in their planes.", "quantifier": "for all rotations and reflections, bunches, elements and stages with such fields, pushers, time steps, numbers of outputs and updates", "why_tests_cant": "a test compares a few angles and particles with a tolerance; an asymmetry in gathering, deposition or pushing that is small or appears for certain signs of x and y goes unnoticed", "anchors": ["wake_t/beamline_elements/plasma_stage.py:PlasmaStage", "wake_t/beamline_elements/field_element.py:FieldElement.track", "wake_t/fields/rz_wakefield.py:RZWakefield", "wake_t/particles/interpolation.py:gather_main_fields_cyl_linear", "wake_t/particles/push/boris_pusher.py:apply_boris_pusher", "wake_t/particles/push/runge_kutta_4.py:apply_rk4_pusher"]}
{"id": "C122", "title": "The history of a wakefield along a plasma stage", "statement": "Tracking through a plasma stage divides it, if there is a laser, into the smallest number of equal parts not longer than dz_fields; without a laser there is an update after every dz_fields. At each update the wakefield is the one of the density at that position, of the envelope at that time and of all bunches, which are at most one of their steps behind. Between two updates the laser is advanced exactly once, by the time between them, in the plasma calculated at the first of them, and in total by the length of the stage; with laser_evolution=False it keeps its initial envelope. None of the updates fails.", "quantifier": "for all stages with a quasistatic or cold fluid wakefield, bunches, fixed or adaptive steps, numbers of outputs, lengths and dz_fields", "why_tests_cant": "the interleaving of pushes, updates and outputs depends on all step lengths; a wrong order, a missing or an additional step of the laser shows only as a small deviation of the fields", "anchors": ["wake_t/beamline_elements/plasma_stage.py:PlasmaStage", "wake_t/fields/rz_wakefield.py:RZWakefield", "wake_t/fields/numerical_field.py:NumericalField.update", "wake_t/tracking/tracker.py:Tracker.do_tracking", "wake_t/physics_models/laser/laser_pulse.py:LaserPulse.evolve"]}
{"id": "C123", "title": "Linear and circular pulses of equal intensity drive the same wake", "statement": "If a linearly polarized pulse in a plasma stage is replaced by a circularly polarized one whose envelope is smaller by the square root of two, then all bunches at all outputs are the same, the wakefield at the end is the same, and the envelope at the end is that of the linear pulse divided by the square root of two.", "quantifier": "for all pulses, both wakefield models on a grid, with or without laser evolution, subgrid and use_phase, all bunches, steps and numbers of outputs", "why_tests_cant": "needs the homogeneity of the whole envelope evolution coupled to the plasma response over all updates, not a comparison of a few runs with a tolerance", "anchors": ["wake_t/physics_models/plasma_wakefields/qs_rz_baxevanis/wakefield.py:Quasistatic2DWakefield", "wake_t/physics_models/plasma_wakefields/qs_cold_fluid_1x3p.py:NonLinearColdFluidWakefield", "wake_t/physics_models/laser/laser_pulse.py:LaserPulse", "wake_t/physics_models/laser/envelope_solver.py:evolve_envelope"]}
{"id": "C124", "title": "The absolute phase of a pulse does not matter", "statement": "Multiplying the envelope of a pulse by a constant phase multiplies the evolved envelope by this phase after any number of steps; its modulus, and so the wakefield, is not affected.", "quantifier": "for all profiles, phases, grids, subgrids and sequences of plasma susceptibilities", "why_tests_cant": "the error appears in the front rows of the grid only and depends on the value of the phase; pulses in tests have phase zero there", "anchors": ["wake_t/physics_models/laser/laser_pulse.py:LaserPulse.evolve", "wake_t/physics_models/laser/envelope_solver.py:evolve_envelope", "wake_t/physics_models/laser/envelope_solver_non_centered.py:evolve_envelope_non_centered"]}
{"id": "C125", "title": "Bunches are not affected by bunches behind them", "statement": "In a plasma stage without a laser, or with a laser that does not evolve, all outputs of the leading bunches are the same with and without further bunches in the stage, provided these start a few cells behind the place where the leading ones end: four longitudinal cells for the quasistatic, five for the cold fluid model, and for the Runge-Kutta pusher additionally twice the distance light travels in the longest step. It suffices that the leading bunches start ahead of this place by twice the length of the stage.", "quantifier": "for all leading and following bunches of any number, charge and size, all stage lengths, density profiles, bunch steps, update periods and numbers of outputs", "why_tests_cant": "bunches, updates and outputs are interleaved and the particles move during the stage; that nothing at all leaks forward over all steps is a statement about every grid, bunch and step length", "anchors": ["wake_t/beamline_elements/plasma_stage.py:PlasmaStage", "wake_t/tracking/tracker.py:Tracker.do_tracking", "wake_t/physics_models/plasma_wakefields/qs_rz_baxevanis/wakefield.py:Quasistatic2DWakefield", "wake_t/physics_models/plasma_wakefields/qs_cold_fluid_1x3p.py:NonLinearColdFluidWakefield", "wake_t/particles/push/runge_kutta_4.py:apply_rk4_pusher", "wake_t/particles/push/boris_pusher.py:apply_boris_pusher"]}
{"id": "C126", "title": "No particle outruns light", "statement": "Between the start and any output, and between any two outputs of a field element, each particle of each bunch is slower than light, whatever the fields are: it stays inside the light cone and never moves forward with respect to the co-moving frame, nor backward by more than twice the distance between the outputs.", "quantifier": "for all electric and magnetic fields, bunches, both pushers, fixed or adaptive steps and numbers of outputs", "why_tests_cant": "needs all field strengths and directions, also such that the momentum jumps within one step, and all sequences of steps", "anchors": ["wake_t/beamline_elements/field_element.py:FieldElement.track", "wake_t/tracking/tracker.py:Tracker.do_tracking", "wake_t/particles/push/runge_kutta_4.py:apply_rk4_pusher", "wake_t/particles/push/boris_pusher.py:apply_boris_pusher"]}
{"id": "C127", "title": "CSR energy change as an integral over the line charge", "statement": "The change of momentum by CSR of a particle in the middle of a bin is the length of the step times the sum over the bins behind it of the second derivative of the line charge times the integrated kernel at the delay from there (averaged over the trajectory points of the step), in units of 1/(4 pi eps0) and of the reference momentum.", "quantifier": "for all bunches, numbers of bins, elements, positions, lattices and steps", "why_tests_cant": "needs the identity of a convolution with a reversed, twice differenced kernel for all profiles and numbers of bins; an error by one bin or at the end of the kernel is below any tolerance of a comparison with a reference", "anchors": ["wake_t/physics_models/collective_effects/csr.py:CSRCalculator.apply_csr", "wake_t/physics_models/collective_effects/csr.py:CSRCalculator._calculate_kernel"]}
{"id": "C128", "title": "Substeps of the laser", "statement": "Evolving a pulse by a step that is divided into n substeps gives the same envelopes, on the grid of the solver and of the wakefield, as n steps of one n-th of the time with the same scheme and in the same plasma.", "quantifier": "for all pulses, grids with or without subgrid, numbers of substeps and susceptibilities", "why_tests_cant": "for all numbers of substeps and all states of the pulse", "anchors": ["wake_t/physics_models/laser/laser_pulse.py:LaserPulse.set_envelope_solver_params", "wake_t/physics_models/laser/laser_pulse.py:LaserPulse.evolve", "wake_t/physics_models/laser/envelope_solver.py:evolve_envelope"]}
{"id": "C129", "title": "Laser, plasma and particles agree on where the grid is", "statement": "A bunch particle at the position of a grid node, at any angle around the axis, feels the fields calculated for this node and nothing else; the plasma solver works and deposits the beam at the same positions in units of the skin depth; the envelope of the laser starts with the values of its profile at these nodes.", "quantifier": "for all boxes, resolutions, densities, field arrays, nodes and angles", "why_tests_cant": "positions are computed independently in the wakefield, the solver, the laser and the gathering; a shift by half a cell in one of them changes results only slightly", "anchors": ["wake_t/fields/rz_wakefield.py:RZWakefield", "wake_t/physics_models/plasma_wakefields/qs_rz_baxevanis/solver.py:calculate_wakefields", "wake_t/physics_models/laser/laser_pulse.py:LaserPulse.initialize_envelope", "wake_t/particles/interpolation.py:gather_main_fields_cyl_linear"]}
{"id": "C130", "title": "Similarity of plasma stages", "statement": "If all lengths and times of a plasma stage (size of the box, length, steps, wavelength and profile of the laser, channel) are multiplied by a factor, the plasma density is divided by its square, external fields are divided by it, and bunches get this factor times the positions and the charge with the same momenta, then tracking returns the same outputs on the new scale: positions multiplied, momenta unchanged; the envelope of the laser and the normalised plasma density are the same and the fields are divided by the factor.", "quantifier": "for all factors, stages with the quasistatic or the cold fluid model, with or without a laser, evolving or not, subgrids, pushers, bunches and numbers of outputs", "why_tests_cant": "conversions between SI and normalised units are scattered over the solvers, the laser, the pushers and the choice of time steps; a wrong power in one of them is invisible at the single density of a test", "anchors": ["wake_t/beamline_elements/plasma_stage.py:PlasmaStage", "wake_t/fields/rz_wakefield.py:RZWakefield", "wake_t/physics_models/plasma_wakefields/qs_rz_baxevanis/solver.py:calculate_wakefields", "wake_t/physics_models/plasma_wakefields/qs_cold_fluid_1x3p.py:NonLinearColdFluidWakefield", "wake_t/physics_models/laser/laser_pulse.py:LaserPulse.evolve"]}
{"id": "C131", "title": "The fields in an openPMD file are those the particles in this file feel", "statement": "If, by the conventions of openPMD, the written position of a particle of any bunch is that of a value of the written electric field (at any angle around the axis), then the force on this particle is that of the written electric and magnetic fields there, and nothing else; both fields are written for the same positions. With a laser, modulus, phase and complex envelope are written for the same positions too, the envelope being the modulus times the exponential of the phase.", "quantifier": "for all boxes, resolutions, states of the wakefield, times, bunches, particles, nodes and angles", "why_tests_cant": "particles and meshes are written by different code with different offsets and positions inside a cell; a shift between them is only visible if both are compared with the gathering for every node", "anchors": ["wake_t/diagnostics/openpmd_diag.py:OpenPMDDiagnostics", "wake_t/fields/rz_wakefield.py:RZWakefield._get_openpmd_diagnostics_data", "wake_t/utilities/other.py:generate_field_diag_dictionary", "wake_t/particles/particle_bunch.py:ParticleBunch"]}
{"id": "C132", "title": "Declared units of the meshes in an openPMD file", "statement": "A mesh with the dimension of an electric field, a magnetic field, a density of charge or a vector potential holds such a quantity in SI units. (Violated for the mesh of the complex envelope: it is declared a vector potential but holds the normalised envelope.)", "quantifier": "for all boxes, states of the wakefield, times and bunches", "why_tests_cant": "readers apply the declared units; tests only look at the arrays", "anchors": ["wake_t/diagnostics/openpmd_diag.py:OpenPMDDiagnostics", "wake_t/fields/rz_wakefield.py:RZWakefield._get_openpmd_diagnostics_data"]}
{"id": "C133", "title": "Splitting a plasma stage does not change tracking", "statement": "Let a plasma stage be cut in two at the position of one of its outputs which is also the position of an update of the wakefield, the density, the channel and the laser pulse continuing in the second stage. Tracking through the two stages one after the other gives the outputs of the whole stage (the first output of the second stage being the last one of the first stage), the same final bunches, and the same final wakefield and laser pulse.", "quantifier": "for all densities, wakefield models on a grid, lasers, numbers of bunches and particles, pushers, numbers of outputs and fixed time steps of the bunches that divide the distance between outputs", "why_tests_cant": "tests compare few splittings with numerical tolerances and usually with a constant density and no laser; the exact continuation involves the order of updates and pushes at the cut, the reuse of a laser pulse and the time seen by each field", "anchors": ["wake_t/tracking/tracker.py:Tracker.do_tracking", "wake_t/beamline_elements/plasma_stage.py:PlasmaStage", "wake_t/fields/numerical_field.py:NumericalField.update", "wake_t/physics_models/laser/laser_pulse.py:LaserPulse.set_envelope_solver_params"]}
{"id": "C134", "title": "A plasma stage can be used again", "statement": "Tracking bunches through a plasma stage object that has already been used gives the result of a new, identical stage. (Violated: the wakefield goes on where the first tracking stopped, with the density and the channel behind the end of the stage and with the evolved laser pulse. It holds in uniform plasma without laser or with a laser that does not evolve.)", "quantifier": "for all plasma stages with a wakefield on a grid, and all bunches tracked first and second", "why_tests_cant": "no test tracks twice through one stage; with the uniform plasma and no laser of the usual tests no difference would be seen", "anchors": ["wake_t/fields/numerical_field.py:NumericalField.update", "wake_t/beamline_elements/plasma_stage.py:PlasmaStage", "wake_t/beamline_elements/field_element.py:FieldElement.track", "wake_t/fields/rz_wakefield.py:RZWakefield"]}
{"id": "C135", "title": "Tracking converges to the solution of the equations of motion", "statement": "In given fields that are bounded and Lipschitz continuous on the region a particle can reach at the speed of light, every output of the particle differs in each of the six coordinates from the exact solution of the relativistic equations of motion at the time of the output by at most C times the largest time step. The constant C depends on the fields, the species and the length of the element only: it is the same for both pushers, for fixed and automatic time steps, for any number of outputs and any other bunches tracked at the same time.", "quantifier": "for all fields bounded and Lipschitz on the reachable region, all exact trajectories, all lengths, time steps, numbers of outputs and both pushers", "why_tests_cant": "tests run single time steps on single beams; no finite set of runs bounds the error for all steps, and an error that does not vanish with the step (a wrong time of a stage, a wrong field sample) can be smaller than a test tolerance", "anchors": ["wake_t/beamline_elements/field_element.py:FieldElement.track", "wake_t/tracking/tracker.py:Tracker.do_tracking", "wake_t/particles/push/runge_kutta_4.py:apply_rk4_pusher", "wake_t/particles/push/boris_pusher.py:apply_boris_pusher", "wake_t/particles/particle_bunch.py:ParticleBunch.evolve"]}
{"id": "C136", "title": "The plasma sees the charge of the bunches", "statement": "The beam sources of both self-consistent plasma models contain the charge of the bunches, in SI units and at every plasma density and resolution. In the cold fluid model, elementary charge times beam density times the volumes of the ring cells adds up to the total charge of the particles in the simulation box. In the quasistatic model, the magnetic field of the beams at a radius more than two cells outside of all particles, summed over the slices, is mu_0 c Q / (2 pi r) for that charge Q. In each slice the beam field of the quasistatic model is the radial integral of the beam density of the cold fluid model.", "quantifier": "for all boxes and grids with at least three nodes in each direction, all plasma densities, all lists of bunches with particles inside and outside the box (cubic particle shape; the agreement of the models for every shape)", "why_tests_cant": "the factors (skin depth, cell volume, elementary charge, density) are spread over two modules and cancel only together; a test with fixed grid and density compares with stored numbers that contain the same factors", "anchors": ["wake_t/physics_models/plasma_wakefields/qs_rz_baxevanis/solver.py:calculate_beam_source", "wake_t/physics_models/plasma_wakefields/qs_cold_fluid_1x3p.py:NonLinearColdFluidWakefield", "wake_t/particles/deposition.py:deposit_3d_distribution", "wake_t/particles/particle_bunch.py:ParticleBunch.q"]}
{"id": "C137", "title": "The magnetic field next to the axis", "statement": "Where the current density does not depend on the radius, the azimuthal magnetic field of the plasma models at every node of the grid is that of a uniform current, mu_0 J r / 2, so that the gradient of the field on the axis does not depend on the resolution.", "quantifier": "for all grids, resolutions, slices and nodes, all uniform current densities", "why_tests_cant": "the node next to the axis is half a cell away from it, its field is small in any plot or norm over the grid, and a comparison of two resolutions shows the same relative error in both", "anchors": ["wake_t/physics_models/plasma_wakefields/qs_cold_fluid_1x3p.py:NonLinearColdFluidWakefield", "wake_t/physics_models/plasma_wakefields/qs_rz_baxevanis/solver.py:calculate_beam_source"]}
{"id": "C138", "title": "Analysis of bunches and of lists of bunches", "statement": "The analysis of a list of bunches has the same keys as that of one bunch; for every key it is an array with one item per bunch, and item i is the value of the key in the analysis of bunch i alone. Each key holds the quantity it is named after: the weighted means, and the statistics of the plane in the name. Exchanging the transverse planes of a bunch exchanges the values of the two planes and changes no other value. The analysis fails only for bunches without charge.", "quantifier": "for all bunches, lists of bunches, numbers and lengths of slices, and all statistics functions (for the exchange: symmetric in the transverse momenta)", "why_tests_cant": "the values pass through four lists of 22 positions each (returned tuple, unpacking, arguments, dictionary); tests compare a few keys of round beams, in which a mix-up of planes is not seen", "anchors": ["wake_t/diagnostics/bunch_analysis.py:analyze_bunch", "wake_t/diagnostics/bunch_analysis.py:analyze_bunch_list"]}
{"id": "C139", "title": "Saved parameters can be read back", "statement": "The parameters of an analysis that are saved to a file are read back from it, key by key.", "quantifier": "for all dictionaries of parameters and all supported versions of the library for HDF5 files", "why_tests_cant": "no test reads a file back, and the result depends on the installed version of a library", "anchors": ["wake_t/diagnostics/bunch_analysis.py:save_parameters_to_file", "wake_t/diagnostics/bunch_analysis.py:read_parameters_from_file"]}
{"id": "C140", "title": "A step of None is the automatic step", "statement": "Tracking through a plasma ramp or an active plasma lens with dt_bunch=None ends and uses the automatic time step, as documented, just like dt_bunch='auto'.", "quantifier": "for all bunches, fields, lengths and numbers of outputs", "why_tests_cant": "the tests only use 'auto' and numbers; with None the loop never ends, which no finite run can show", "anchors": ["wake_t/tracking/tracker.py:Tracker.do_tracking", "wake_t/tracking/tracker.py:Tracker.evolve_bunch", "wake_t/beamline_elements/plasma_ramp.py:PlasmaRamp", "wake_t/beamline_elements/active_plasma_lens.py:ActivePlasmaLens"]}
{"id": "C141", "title": "Plasma stages and ramps accept their documented arguments", "statement": "A plasma stage accepts as density a number or a function of the position and as wakefield model the documented names, a field or None, and a number means the constant density. A ramp accepts the documented profile names and needs the densities at top and bottom only if no decay length is given.", "quantifier": "for all densities, wakefield models, external fields, profiles and optional arguments", "why_tests_cant": "the tests build a few stages with arguments that work; combinations of optional arguments and types are not covered", "anchors": ["wake_t/beamline_elements/plasma_stage.py:PlasmaStage._get_density_profile", "wake_t/beamline_elements/plasma_stage.py:PlasmaStage._get_wakefield", "wake_t/beamline_elements/plasma_stage.py:PlasmaStage._get_optimized_dt", "wake_t/beamline_elements/plasma_ramp.py:PlasmaRamp"]}
{"id": "C142", "title": "A plasma lens without wakefields does not depend on the plasma", "statement": "Without wakefields the only field of an active plasma lens is that of its focusing strength, and neither the fields nor the automatic step depend on the density, the wakefield model or its parameters; with wakefields a lens is the plasma stage with the field of the lens as an external field.", "quantifier": "for all focusing strengths, densities (None, number or function), models, parameters and bunches", "why_tests_cant": "a test compares a few densities; the claim is about all of them", "anchors": ["wake_t/beamline_elements/active_plasma_lens.py:ActivePlasmaLens", "wake_t/beamline_elements/plasma_stage.py:PlasmaStage"]}
{"id": "C143", "title": "Tracking with the Boris pusher is accurate to second order", "statement": "In given fields that are twice continuously differentiable in time and space, all outputs of all particles of a bunch tracked with the Boris pusher differ in each of the six coordinates from the exact solution of the relativistic equations of motion by at most C times the square of the largest time step. C depends on the fields, the bunch and the length of the element only, not on the time steps, the number of outputs or the other bunches.", "quantifier": "for all twice differentiable fields, all bunches, lengths, time steps (fixed or automatic) and numbers of outputs", "why_tests_cant": "an order of accuracy is a statement about all steps; a pusher that drops to first order (fields taken at the start of the step, a missing half step, gamma of the wrong momentum) still gives nearly the same result in every single run", "anchors": ["wake_t/beamline_elements/field_element.py:FieldElement.track", "wake_t/tracking/tracker.py:Tracker.do_tracking", "wake_t/particles/particle_bunch.py:ParticleBunch.evolve", "wake_t/particles/push/boris_pusher.py:apply_boris_pusher"]}
{"id": "C144", "title": "Tracking with the Runge-Kutta pusher is accurate to fourth order", "statement": "In given fields that are four times continuously differentiable in time and space, all outputs of all particles of a bunch tracked with the rk4 pusher differ in each of the six coordinates from the exact solution of the relativistic equations of motion by at most C times the fourth power of the largest time step, with C independent of the time steps, the number of outputs and the other bunches.", "quantifier": "for all four times differentiable fields, all bunches, lengths, time steps (fixed or automatic) and numbers of outputs", "why_tests_cant": "one wrong weight or one wrong stage time reduces the order and changes a single run by less than any tolerance used", "anchors": ["wake_t/beamline_elements/field_element.py:FieldElement.track", "wake_t/tracking/tracker.py:Tracker.do_tracking", "wake_t/particles/particle_bunch.py:ParticleBunch.evolve", "wake_t/particles/push/runge_kutta_4.py:apply_rk4_pusher"]}
{"id": "C145", "title": "There is one exact motion and both pushers approach it", "statement": "In given continuously differentiable fields the relativistic equations of motion have, for every particle of a bunch, exactly one solution over the whole element, and tracking approaches it with either pusher. Two trackings of the same bunch through the same fields with other pushers, other time steps and other numbers of outputs therefore differ at equal times by at most a constant times the sum of the largest time steps.", "quantifier": "for all continuously differentiable fields, all bunches, and all pairs of elements with the same fields and length and any pushers, time steps and numbers of outputs", "why_tests_cant": "a comparison of the pushers in a test fixes one beam, one field and one step; agreement in the limit for all fields is not a statement about finitely many runs", "anchors": ["wake_t/beamline_elements/field_element.py:FieldElement.track", "wake_t/tracking/tracker.py:Tracker.do_tracking", "wake_t/particles/particle_bunch.py:ParticleBunch.evolve", "wake_t/particles/push/runge_kutta_4.py:apply_rk4_pusher", "wake_t/particles/push/boris_pusher.py:apply_boris_pusher"]}
{"id": "C146", "title": "The evolving laser and the leading bunches are not affected by bunches behind", "statement": "In a plasma stage whose laser pulse evolves, adding bunches that start behind a slice of the wakefield grid (less the reach of the particle shape) changes neither the outputs of the bunches that stay ahead of it nor the laser envelope in this slice and ahead of it, at the end of the stage. This holds with the cold fluid model and with the quasistatic model with the linear shape of the plasma particles, with or without a finer radial grid for the laser, if the laser has no finer longitudinal grid.", "quantifier": "For all densities, lasers, bunches, pushers, time steps, numbers of updates and of laser substeps, and for all slices.", "why_tests_cant": "A test compares two runs with particular bunches; that no disturbance travels forward through the coupled sweep of the envelope, the plasma columns, the interpolation between grids and the repeated updates is a statement about all of them.", "anchors": ["wake_t/physics_models/laser/laser_pulse.py:LaserPulse", "wake_t/physics_models/laser/envelope_solver.py:evolve_envelope", "wake_t/fields/rz_wakefield.py:RZWakefield", "wake_t/physics_models/plasma_wakefields/qs_rz_baxevanis/solver.py:calculate_wakefields", "wake_t/physics_models/plasma_wakefields/qs_cold_fluid_1x3p.py:NonLinearColdFluidWakefield"]}
{"id": "C147", "title": "The cold fluid wakefield converges to the exact wake, to second order in the length of the slices for a laser driver", "statement": "Take a driver whose laser amplitude and beam density are smooth along the simulation box, and the exact one-dimensional nonlinear wake it drives. As the longitudinal grid of the cold fluid model is refined, the accelerating field stored in every slice, including the first and last ones, approaches the exact field: the error is at most a constant times (dz^2 + nu dz), where dz is the length of a slice and nu the steepest slope of the beam density. It is thus of second order for a laser driver and of first order for a beam.", "quantifier": "For all twice continuously differentiable laser amplitudes and beam densities, all exact wakes of them on which 1 + psi stays above a positive number, all box lengths, all grids with at least three slices shorter than a bound that depends only on the driver and the box, all radial cells in which the grid holds samples of the driver, and all slices.", "why_tests_cant": "A test compares one wake on a few grids with a tolerance; it cannot show the order of accuracy for every driver nor that it holds up to the ends of the box.", "anchors": ["wake_t/physics_models/plasma_wakefields/qs_cold_fluid_1x3p.py:NonLinearColdFluidWakefield._calculate_wakefield", "wake_t/physics_models/plasma_wakefields/qs_cold_fluid_1x3p.py:NonLinearColdFluidWakefield"]}
{"id": "C148", "title": "In front of every driver the quasistatic plasma exerts no transverse force", "statement": "When a plasma stage is tracked with the quasistatic model ('quasistatic_2d') and a plasma of constant density, the transverse wakefield E_r - c B_theta written for the first slice of the box, in front of every laser and every bunch, should be zero: nothing has disturbed the plasma yet. It is not zero: even without any laser and bunch the macroparticles of the resting plasma leave a transverse field in the first slice (over a fifth of the wave-breaking field for one particle per cell of one skin depth). What holds is that the field at every radial node of that slice is at most 3/2 of the particle spacing dr/ppc (in skin depths) times the wave-breaking field, whatever the drivers.", "quantifier": "all box sizes, numbers of radial (at least 3) and longitudinal cells, particles per cell, plasma radii, drivers, pushers and particle shapes", "why_tests_cant": "Tests compare one simulation with stored numbers, which contain the spurious field; a bound for every resolution and every driver needs the calculus of the resting column.", "anchors": ["wake_t/physics_models/plasma_wakefields/qs_rz_baxevanis/solver.py:calculate_wakefields", "wake_t/physics_models/plasma_wakefields/qs_rz_baxevanis/psi_and_derivatives.py:calculate_psi", "wake_t/physics_models/plasma_wakefields/qs_rz_baxevanis/plasma_particles.py:PlasmaParticles"]}
{"id": "C149", "title": "Magnets do not change the energy of the particles", "statement": "When a bunch is tracked through a drift, dipole, quadrupole, sextupole or general transfer-map element without CSR, then the Lorentz factor sqrt(1 + px^2 + py^2 + pz^2) of every particle is the same before and after the element and in every output, to first and to second order, for every reference energy and number of outputs, as long as the particle moves forward along the reference orbit.", "quantifier": "all elements, bunches, particles, reference energies, orders, numbers of outputs and accelerator environments (external functions)", "why_tests_cant": "A test compares a few elements with stored numbers; that the chain of rotation, conversion to Ocelot coordinates, first- and second-order maps, conversion back and rotation keeps the energy of every particle is an algebraic identity with square roots for all arguments.", "anchors": ["wake_t/beamline_elements/tm_elements.py:TMElement", "wake_t/particles/push/transfer_matrix.py:track_with_transfer_map", "wake_t/utilities/bunch_manipulation.py:convert_from_ocelot_matrix"]}
{"id": "C150", "title": "First-order tracking keeps the emittance", "statement": "When a bunch is tracked to first order through a transfer-map element without CSR, then the normalised rms emittance in y (the plane perpendicular to the bends) is exactly the same before and after, whatever the energy spread of the bunch, the strength of the magnet and the reference energy. The normalised rms emittance in the plane of the bends, measured in the frame of the reference orbit, is the same if the element does not bend or if all particles have the same energy.", "quantifier": "all elements without CSR tracked to first order, all bunches with all weights and energies, all reference energies and numbers of outputs", "why_tests_cant": "Tests see the emittance of a few bunches up to a tolerance that hides small growth; the invariance of a weighted second-moment determinant for every bunch needs the algebra of the whole chain of coordinate changes.", "anchors": ["wake_t/beamline_elements/tm_elements.py:TMElement", "wake_t/particles/push/transfer_matrix.py:track_with_transfer_map", "wake_t/utilities/bunch_manipulation.py:convert_to_ocelot_matrix"]}
{"id": "C151", "title": "Lenses and field quadrupoles do no work with the Boris pusher", "statement": "When bunches are tracked with the Boris pusher through an active plasma lens without wakefields, a field quadrupole, or any element whose fields are purely magnetic, the Lorentz factor of every particle is the same in every output as at the start, whatever the steps of the bunches, the other bunches and the order in which the parallel loops run.", "quantifier": "all elements with magnetic fields, all bunches (also several, also injected later), steps (fixed or automatic), numbers of outputs and loop orders", "why_tests_cant": "A test follows one bunch with one step; exact conservation for every number of steps needs induction over the events of the tracker and the algebra of the rotation.", "anchors": ["wake_t/beamline_elements/field_quadrupole.py:FieldQuadrupole", "wake_t/beamline_elements/active_plasma_lens.py:ActivePlasmaLens", "wake_t/particles/push/boris_pusher.py:apply_boris_pusher", "wake_t/tracking/tracker.py:Tracker"]}
{"id": "C152", "title": "Angular momentum about the axis is conserved in plasma stages", "statement": "When bunches are tracked with the Boris pusher through a plasma stage, in the wakefield on a grid (quasistatic or cold fluid) with or without laser and with plasma lenses or blowout fields as external fields, the angular momentum x py - y px of every particle about the axis is the same in every output as at the start: neither the interpolation of the wakefield nor the finite steps exert a torque.", "quantifier": "all stages, wakefields, lasers, bunches, steps (fixed or automatic), numbers of outputs and loop orders", "why_tests_cant": "Tests compare emittances or energies of a few simulations; that no step of any length in any interpolated wakefield exerts a torque needs the algebra of the scheme and induction over the events.", "anchors": ["wake_t/particles/push/boris_pusher.py:apply_boris_pusher", "wake_t/particles/interpolation.py:gather_main_fields_cyl_linear", "wake_t/beamline_elements/plasma_stage.py:PlasmaStage", "wake_t/tracking/tracker.py:Tracker"]}
{"id": "C153", "title": "Fields between grid points are accurate to second order", "statement": "When a grid holds the values of smooth fields, the fields felt by a beam particle anywhere in the box off the axis, the laser and beam sources felt by a plasma particle anywhere in the box, and an envelope moved to other grid points, differ from the smooth fields by at most (M_z dz^2 + M_r dr^2)/8, with M_z and M_r bounds of the second derivatives; where an envelope is extrapolated (from the axis to the first node and from the last node to the outer radius) by at most M_z dz^2/4 + 3 M_r dr^2/8. This includes the half cell next to the axis and the edges of the box, whatever the guard cells contain.", "quantifier": "for all twice differentiable fields with the symmetry of their component across the axis, every grid and every position in the box", "why_tests_cant": "tests with a given field cannot bound the error for all fields and positions, and errors of first order confined to the half cell at the axis or to the last cell look like noise", "anchors": ["wake_t/particles/interpolation.py:gather_main_fields_cyl_linear", "wake_t/particles/interpolation.py:gather_sources_qs_baxevanis", "wake_t/fields/interpolation.py:interpolate_rz_field"]}
{"id": "C154", "title": "The Boris pusher preserves phase space volume", "statement": "For given fields (magnets, lenses, blowout models, field maps, gridded wakefields), the particles tracked with the Boris pusher move by a map of the six-dimensional phase space that preserves volumes: any region of the phase space is carried to a region with exactly the same volume, for any time step, however coarse, and for every output of the element. The map is one-to-one and the same for all particles and bunches of a species.", "quantifier": "for all fields that are measurable functions of the position (continuity is not needed), all time steps, all lengths and numbers of outputs, all bunches, all regions of the phase space", "why_tests_cant": "Volume preservation is a statement about a six-dimensional Jacobian at every point of the phase space and about all measurable sets; a test can only follow finitely many particles, for which a change of volume is not visible.", "anchors": ["wake_t/particles/push/boris_pusher.py:apply_boris_pusher", "wake_t/particles/particle_bunch.py:ParticleBunch", "wake_t/beamline_elements/field_element.py:FieldElement"]}
{"id": "C155", "title": "Matched bunches keep their size", "statement": "A bunch generated by get_matched_bunch for a plasma density or a focusing gradient is matched to these focusing fields: its transverse sizes do not change while its particles oscillate in them, for the requested species of particles.", "quantifier": "for all energies, emittances, gradients, densities and species, all random numbers that are standard and uncorrelated, and all propagation distances", "why_tests_cant": "A test uses electrons, for which the beta function is the matched one, and cannot exclude a dependence on the species; the size of a random sample along a finite distance is only constant up to noise.", "anchors": ["wake_t/utilities/bunch_generation.py:get_matched_bunch"]}
{"id": "C156", "title": "Order of bunches and grouping of particles do not matter in a stage", "statement": "Tracking bunches through an element with collective fields (a plasma stage with the quasistatic or the cold fluid model) gives the same results if the bunches are passed in another order, together with their (fixed or adaptive) time steps. If the time steps are fixed, the charged particles may also be distributed among bunches in another way (bunches split or merged), and particles or whole bunches without charge may be left out: every particle has the same coordinates in every output, and the fields are the same.", "quantifier": "for all stages, laser pulses, lists of bunches, permutations of the bunches and assignments of particles to bunches, all numbers of steps and outputs", "why_tests_cant": "the tracker pushes bunches and updates fields in an order that depends on the list; a test compares one reordering", "anchors": ["wake_t/tracking/tracker.py:Tracker.do_tracking", "wake_t/beamline_elements/field_element.py:FieldElement.track", "wake_t/fields/rz_wakefield.py:RZWakefield", "wake_t/physics_models/plasma_wakefields/qs_rz_baxevanis/solver.py:calculate_wakefields", "wake_t/physics_models/plasma_wakefields/qs_cold_fluid_1x3p.py:NonLinearColdFluidWakefield"]}
{"id": "C157", "title": "The number of outputs does not influence the tracking", "statement": "With push_bunches_before_diags=False, changing n_out of a field element (and whether files are written) does not change the result of the tracking: the final bunches and fields are the same, and the outputs at the same distance (output k of n and output k' of n' with k/n = k'/n') contain the same bunches.", "quantifier": "for all elements with any fields and time steps (fixed or adaptive), all bunches, all pairs of numbers of outputs, any monotone rounding of the clock to single precision, at all outputs", "why_tests_cant": "A test compares two particular numbers of outputs for a given set of time steps; whether an output at a time which coincides (after rounding) with a push of a bunch or an update of a field is taken before or after it, for every schedule, needs an argument about the order of all events.", "anchors": ["wake_t/tracking/tracker.py:Tracker.do_tracking", "wake_t/beamline_elements/field_element.py:FieldElement.track"]}
{"id": "C158", "title": "A mirrored beamline tracks the mirrored bunch", "statement": "Reflecting a bunch horizontally and tracking it through the beamline whose bends and sextupoles have the opposite sign gives, in every output and at the end, the reflection of what the original beamline gives, including coherent synchrotron radiation and second-order maps. Reflecting it vertically gives the vertical reflection in the same beamline.", "quantifier": "for all lists of drifts, quadrupoles, sextupoles and dipoles of any length, strength, order and number of outputs, CSR on or off per element, all bunches including those in the middle of a bend, with or without diagnostics", "why_tests_cant": "A test compares two particular lattices; sign errors in one of the second-order coefficients, in the reference rotation or in the CSR kick cancel for special initial conditions.", "anchors": ["wake_t/beamline_elements/tm_elements.py:TMElement.track", "wake_t/beamline_elements/beamline.py:Beamline.track", "wake_t/physics_models/collective_effects/csr.py:CSRCalculator.apply_csr"]}
{"id": "C159", "title": "Beamlines do not depend on the longitudinal position of the bunch", "statement": "Moving a bunch along the reference orbit by any distance before a beamline moves it by the same distance in every output and at the end and changes nothing else: the CSR energy change and the second-order maps depend only on positions relative to the bunch.", "quantifier": "for all beamlines of transfer-matrix elements with or without CSR, all bunches, all distances, all outputs", "why_tests_cant": "Universal in the bunch, the distance and the lattice; the CSR histogram limits, the interpolation and the conversion to the reference frame must all move together.", "anchors": ["wake_t/beamline_elements/tm_elements.py:TMElement.track", "wake_t/beamline_elements/beamline.py:Beamline.track", "wake_t/physics_models/collective_effects/csr.py:CSRCalculator.apply_csr"]}
{"id": "C160", "title": "Turning a quadrupole or sextupole about the axis", "statement": "Without CSR, a drift commutes with every rotation of the bunch about the axis; a quadrupole acting on a bunch rotated by 90 degrees gives the rotated result of the quadrupole with opposite k1; a sextupole acting on a bunch rotated by 60 degrees gives the rotated result of the sextupole with opposite k2. This holds for first- and second-order tracking, in every output.", "quantifier": "for all lengths, strengths, orders, energies, numbers of outputs and all bunches whose reference orbit is along the axis", "why_tests_cant": "An identity between all second-order coefficients of the two planes, which a test samples at some particles and strengths; focusing and defocusing planes use different formulas (cos and cosh).", "anchors": ["wake_t/beamline_elements/tm_elements.py:TMElement.track", "wake_t/physics_models/beam_optics/transfer_matrices.py:second_order_matrix", "wake_t/particles/push/transfer_matrix.py:track_with_transfer_map"]}
{"id": "C161", "title": "Small changes of the strengths have small effects", "statement": "The coordinates of a particle behind a transfer-matrix element depend continuously on the length tracked, the bending angle, the quadrupole and sextupole gradients and the initial coordinates, also where the code switches to separate formulas for vanishing strengths; in particular weak magnets approach drifts. (Violated at second order: in a sextupole with a dipole field the second-order change of the longitudinal position with the energy grows without bound as the dipole field goes to zero.)", "quantifier": "for all lengths, energies, strengths including zero, both orders and all particles", "why_tests_cant": "A test compares finitely many strengths; the behaviour near the branch points is a statement about limits, and the divergence appears only for a combination of fields.", "anchors": ["wake_t/physics_models/beam_optics/transfer_matrices.py:first_order_matrix", "wake_t/physics_models/beam_optics/transfer_matrices.py:second_order_matrix", "wake_t/particles/push/transfer_matrix.py:track_with_transfer_map"]}
{"id": "C162", "title": "Pulses in a given plasma superpose", "statement": "For a given susceptibility of the plasma along the way, evolving the sum of two laser pulses (a SummedPulse) gives at every step the sum of the two envelopes evolved separately, on the grid of the plasma and with or without a finer grid of the pulse. The two-color and pulse-train setups of the examples rely on this.", "quantifier": "for all grids, subgrids, solver parameters, pairs of initial profiles, sequences of susceptibilities and time steps, and all grid points", "why_tests_cant": "A test runs a few pulses and compares within a tolerance; the phase differences used by the solver are computed from the pulse itself, so that the default scheme is only approximately linear, which a tolerance hides.", "anchors": ["wake_t/physics_models/laser/laser_pulse.py:SummedPulse", "wake_t/physics_models/laser/laser_pulse.py:LaserPulse.evolve", "wake_t/physics_models/laser/envelope_solver.py:evolve_envelope"]}
{"id": "C163", "title": "A drift does what tracking without fields does", "statement": "Tracking a bunch through a drift of the transfer-matrix kind and through an element of the same length without fields (numerical pushers) gives the same bunch: the momenta agree exactly; the transverse positions agree up to 2 L |slope| (1/(g^2-1) + d^2) for second-order maps and 2 L |slope| (1/(g^2-1) + |d|) for first-order maps, where g is the reference energy and d the deviation of the energy of the particle; the longitudinal positions agree up to the slippage L (1 - v/c) of the reference particle behind light, which the drift leaves out for all particles alike, and terms beyond the order of the map.", "quantifier": "for all bunches on the reference axis, all particles with forward momentum, energy deviation at most a quarter and slope squared at most an eighth, all lengths, reference energies with g^2-1 at least 4, both orders, all numbers of outputs, both pushers, all fixed or adaptive time steps", "why_tests_cant": "The two kinds of tracking are implemented with unrelated code (second-order maps versus Runge-Kutta or Boris steps), and the claim is an estimate with explicit constants over all energies, slopes, step sizes and numbers of outputs; a test compares a single case with a tolerance chosen by hand.", "anchors": ["wake_t/beamline_elements/tm_elements.py:Drift", "wake_t/beamline_elements/tm_elements.py:TMElement.track", "wake_t/tracking/tracker.py:Tracker.do_tracking", "wake_t/beamline_elements/field_element.py:FieldElement.track"]}
{"id": "C164", "title": "The laser solver is consistent with the envelope equation to second order", "statement": "A smooth envelope that solves the laser envelope equation (radial Laplacian, carrier term, mixed derivative, second time derivative, plasma susceptibility) satisfies the equations of the solver at the grid points up to K (dt^2 + dz^2 + dr^2), with a constant K that does not depend on the grid, the time step or the point, next to the axis as well as away from it, with and without use of the phase. The error of a step that starts from two exact levels therefore satisfies the linear equations of the solver with a source of second order. The first step leaves the second time derivative out and is accurate to second order apart from that.", "quantifier": "for all smooth envelopes that are even in r, regions of time and space, susceptibilities below a bound, wave numbers, grids and steps with small enough longitudinal spacing, all inner grid points, both settings of use_phase (with the phase smooth and the field on axis non-zero where the phase is used)", "why_tests_cant": "Order of accuracy is a statement about the limit of all grids and steps and about all smooth fields; tests compare a few runs with a Gaussian pulse in vacuum, cannot separate the orders in dt, dz and dr, and do not show that the constant stays bounded next to the axis, where the Laplacian has a factor 1/r.", "anchors": ["wake_t/physics_models/laser/envelope_solver.py:evolve_envelope", "wake_t/physics_models/laser/envelope_solver_non_centered.py:evolve_envelope_non_centered", "wake_t/physics_models/laser/laser_pulse.py:LaserPulse.evolve"]}
{"id": "C165", "title": "Behind the drivers the cold-fluid wave keeps its energy", "statement": "In the slices of the cold fluid model that lie behind all drivers, the plasma wave neither grows nor decays: the energy of the wave, half the square of the accelerating field plus psi^2 / (2 (1 + psi)), where psi is the potential, is the same in all of them up to an error of at most a constant times (dz^2 + nu dz), with dz the length of a slice and nu the steepest slope of the beam density.", "quantifier": "For all twice continuously differentiable laser amplitudes and beam densities that vanish from some distance behind the head of the box on, all exact wakes of them on which 1 + psi stays above a positive number, all box lengths, all grids with at least three slices shorter than a bound that depends only on the driver and the box, all radial cells in which the grid holds samples of the driver, and all pairs of slices behind the drivers.", "why_tests_cant": "A test compares the wave in a few periods of one wake with a tolerance; it cannot exclude a slow growth or decay for other drivers, or show how it depends on the grid.", "anchors": ["wake_t/physics_models/plasma_wakefields/qs_cold_fluid_1x3p.py:NonLinearColdFluidWakefield._calculate_wakefield", "wake_t/physics_models/plasma_wakefields/qs_cold_fluid_1x3p.py:NonLinearColdFluidWakefield"]}
{"id": "C166", "title": "Weak drivers excite the linear wake in the cold-fluid model, and their wakes superpose", "statement": "For a driver of strength eps (half the square of the laser amplitude plus the size of the beam density, everywhere at most eps), the potential and the accelerating field of the cold fluid model agree with the wake of linear theory, the integral over everything ahead of the sine (cosine) of the distance times the strength of the driver there, up to a constant times eps^2, apart from the error of the discretization. The accelerating field of a driver whose intensity and density are the sums of those of two others is the sum of their fields, up to errors of the same size.", "quantifier": "For all box lengths there are a bound on eps and a constant such that, for all twice continuously differentiable laser amplitudes and beam densities within the bound, there is a length of slices such that for all grids with at least three shorter slices, all radial cells in which the grid holds samples of the driver, and all slices the claim holds.", "why_tests_cant": "A test can compare one weak driver with linear theory to a tolerance; it cannot show that the difference is of second order in the strength for every shape of the driver.", "anchors": ["wake_t/physics_models/plasma_wakefields/qs_cold_fluid_1x3p.py:NonLinearColdFluidWakefield._calculate_wakefield", "wake_t/physics_models/plasma_wakefields/qs_cold_fluid_1x3p.py:NonLinearColdFluidWakefield"]}
{"id": "C167", "title": "Unknown names of options are rejected", "statement": "Options that are chosen by name (profile and type of a ramp, wakefield model, pushers of bunches and of the plasma, shape of the particles, polarization of a pulse, type of a phase space matrix) accept the documented names only: any other name ends in an error instead of a simulation with other settings.", "quantifier": "For all strings that are not documented names, and all other arguments.", "why_tests_cant": "A test tries a few wrong names for some of the options; it does not show what becomes of all other strings.", "anchors": ["wake_t/beamline_elements/plasma_ramp.py:PlasmaRamp", "wake_t/beamline_elements/plasma_ramp.py:PlasmaRamp.ramp_profile", "wake_t/beamline_elements/plasma_stage.py:PlasmaStage._get_wakefield", "wake_t/particles/particle_bunch.py:ParticleBunch.evolve", "wake_t/particles/particle_bunch.py:ParticleBunch", "wake_t/physics_models/plasma_wakefields/qs_rz_baxevanis/deposition.py:deposit_plasma_particles", "wake_t/physics_models/plasma_wakefields/qs_rz_baxevanis/wakefield.py:Quasistatic2DWakefield"]}
{"id": "C168", "title": "A quadrupole focuses alike as magnet and as field", "statement": "A Quadrupole with strength k1, tracked with transfer matrices, and a FieldQuadrupole of the same length with the gradient k1 gamma m c / e that the Quadrupole prints, tracked through its magnetic field by a pusher, do the same to particles near the axis. For offsets and slopes up to eps and a relative deviation delta of the energy, offsets and slopes behind the two differ by a constant times eps (1/(gamma^2 - 1) + delta^2 + eps^2) (delta instead of delta^2 for maps of first order), positions along the bunch by a constant times 1/(gamma^2 - 1) + eps^2, apart from the error of the pusher, which is of second order (Boris) or fourth order (Runge-Kutta) in the time step.", "quantifier": "For all lengths and strengths (focusing or defocusing) there are a bound on eps and a constant such that, for all bunches of any species, reference energies with gamma^2 - 1 at least 4, orders of the map, both pushers, all time steps and numbers of outputs (of the magnet: one, if the map is of second order), and all particles that fly forward with offsets and slopes at most eps and an energy within a quarter of the reference energy the claim holds.", "why_tests_cant": "A test can compare one bunch behind one quadrupole to a tolerance; it cannot show that sign, units and strength of both descriptions agree for all strengths, lengths and energies, nor that what is left vanishes with the emittance and the spread of the energy.", "anchors": ["wake_t/beamline_elements/tm_elements.py:Quadrupole", "wake_t/beamline_elements/field_quadrupole.py:FieldQuadrupole", "wake_t/physics_models/beam_optics/transfer_matrices.py:first_order_matrix", "wake_t/physics_models/beam_optics/transfer_matrices.py:second_order_matrix", "wake_t/physics_models/em_fields/quadrupole.py:QuadrupoleField"]}
{"id": "C169", "title": "Betatron oscillations in plasma lenses and ion channels", "statement": "In an ActivePlasmaLens without wakefields with focusing gradient g, and in a PlasmaStage with the model focusing_blowout and uniform density n, every particle near the axis oscillates harmonically in both planes, at its own wavenumber. That is sqrt(-q g / (m c gamma)) in the lens and k_p / sqrt(2 gamma) (for electrons, k_p the plasma wavenumber for the density n) in the plasma. For offsets and slopes up to eps, offsets and momenta at all outputs differ from the harmonic oscillation by a constant times eps (1/(gamma^2 - 1) + eps^2), apart from the error of the pusher, which is of second order (Boris) or fourth order (Runge-Kutta) in the time step.", "quantifier": "For all lengths of the element and bounds on the wavenumber there are a bound on eps and a constant such that, for all bunches, gradients or densities, for every step of the pusher, every output and every particle that flies forward with gamma^2 - 1 >= 4; the constant in front of the error of the pusher may depend on the bunch and the fields but not on the step.", "why_tests_cant": "A test tracks single particles with single energies through one lens and compares at some tolerance; it cannot separate the error of the pusher from the deviation of the exact motion, nor show that the deviations vanish at these rates for all energies, lengths and gradients.", "anchors": ["wake_t/beamline_elements/active_plasma_lens.py:ActivePlasmaLens", "wake_t/beamline_elements/plasma_stage.py:PlasmaStage", "wake_t/physics_models/em_fields/linear_b_theta.py:LinearBThetaField", "wake_t/physics_models/plasma_wakefields/focusing_blowout.py:FocusingBlowoutField", "wake_t/particles/push/boris_pusher.py:apply_boris_pusher", "wake_t/particles/push/runge_kutta_4.py:apply_rk4_pusher"]}
{"id": "C170", "title": "Acceleration in plasma stages", "statement": "In fields without transverse magnetic field, such as those of the blowout models, the longitudinal momentum of every particle changes between two outputs by at least the smallest and at most the largest longitudinal force times the time in between. In particular, in a PlasmaStage with custom_blowout and lon_field_slope 0 every particle, on the axis or not, has gained exactly q lon_field s / (m c^2) after the distance s, and with focusing_blowout the longitudinal momentum of no particle changes, whatever the density profile. If the fields have no transverse component on the axis (blowouts, lenses, quadrupoles), particles that fly along the axis stay exactly on the axis, and gain momentum within the same bounds for the forces on the axis.", "quantifier": "For all fields of these kinds, both pushers, all time steps (fixed or automatic), numbers of outputs, bunches without ballistic injection and particles.", "why_tests_cant": "That the gain does not depend on the time step, on the transverse motion and on the number of outputs is a statement about all schedules of pushes; a test compares the final energy of one run with a tolerance.", "anchors": ["wake_t/beamline_elements/plasma_stage.py:PlasmaStage", "wake_t/physics_models/plasma_wakefields/custom_blowout.py:CustomBlowoutWakefield", "wake_t/physics_models/plasma_wakefields/focusing_blowout.py:FocusingBlowoutField", "wake_t/particles/push/boris_pusher.py:apply_boris_pusher", "wake_t/particles/push/runge_kutta_4.py:apply_rk4_pusher"]}
{"id": "C171", "title": "The deposition keeps the sign of the charge", "statement": "Depositing particles of non-negative weight never lowers any cell of the array, for both shapes, with and without the Ruyten correction (which moves charge from one cell to the next), and no set of cells receives more than the weight of the particles in the box. Therefore the azimuthal magnetic field that the quasistatic model obtains from a beam of one sign has this sign everywhere, the charge enclosed by a circle (radius times field) never decreases with the radius, and never exceeds the charge of the beam.", "quantifier": "For all grids with positive radial spacing, sizes, both shapes, with and without correction, lists of particles of non-negative weight at any position, initial arrays, slices and radii.", "why_tests_cant": "The correction subtracts from a cell an amount that depends on the position of the particle within the cell and on the radius; tests look at the total or at a few particles, not at the worst position in every cell.", "anchors": ["wake_t/particles/deposition.py:deposit_3d_distribution", "wake_t/particles/deposition.py:deposit_3d_distribution_linear", "wake_t/particles/deposition.py:deposit_3d_distribution_cubic", "wake_t/physics_models/plasma_wakefields/qs_rz_baxevanis/solver.py:calculate_beam_source"]}
{"id": "C172", "title": "Work and energy with the Boris pusher", "statement": "The energy that a push with the Boris pusher gives to a particle is exactly the work of the electric field it feels after half of the step, along the mean of its old and its new momentum; the magnetic field does no work, whatever its size and the time step. Therefore, when a plasma stage, lens, quadrupole or other element tracks with the Boris pusher in electric fields nowhere larger than E, the Lorentz factor of every particle changes between two outputs by at most |q| E T / (m c), where T is the time in between.", "quantifier": "For all fields (any magnetic field, time dependent or not) with an electric field of at most E, all time steps (fixed or automatic), numbers of outputs, bunches with and without ballistic injection, and particles.", "why_tests_cant": "A test can check the energy in a few magnets with a tolerance; that no combination of fields, steps and initial conditions produces spurious energy is a statement about all of them.", "anchors": ["wake_t/particles/push/boris_pusher.py:apply_boris_pusher", "wake_t/particles/particle_bunch.py:ParticleBunch.evolve", "wake_t/tracking/tracker.py:Tracker"]}
{"id": "C173", "title": "Particles outside of the simulation box drift", "statement": "In a PlasmaStage with a wakefield on a grid and no external fields, whatever the driver and the wakefield model: a particle that is behind the simulation box, or beyond the outermost radial cell and moving outwards, never feels a field again. In all later outputs its momentum is unchanged and it is where a free particle is, so it never returns. With the Boris pusher a particle that is in front of the box in some output has drifted freely until then. The same holds for any element whose fields end at such a box.", "quantifier": "For all boxes, wakefields, drivers, both pushers (Boris for the front), time steps, numbers of outputs, bunches with and without ballistic injection, and particles.", "why_tests_cant": "Tests look at bunches inside of the box; that no particle outside is ever accelerated back, at any step of the tracking, is an invariant of all pushes.", "anchors": ["wake_t/particles/interpolation.py:gather_main_fields_cyl_linear", "wake_t/fields/rz_wakefield.py:RZWakefield", "wake_t/particles/push/boris_pusher.py:apply_boris_pusher", "wake_t/particles/push/runge_kutta_4.py:apply_rk4_pusher"]}
{"id": "C174", "title": "The parabolic coefficient makes a plasma channel", "statement": "With the coefficient p the quasistatic model starts from a plasma whose density at the radius r is n(1 + p r^2), in SI units and whatever the local density n: each plasma particle stands for the electrons of its ring, and the electrons within any ring boundary R are those of the channel, up to a relative error of second order in the width of the rings that vanishes for p = 0. The plasma extends to the requested radius up to half a ring. The coefficient may be a floating point number, valid everywhere, or a function of the position; anything else is rejected with a ValueError.", "quantifier": "for all grids, numbers of particles per cell, plasma radii, densities, skin depths and coefficients, all rings and ring boundaries, and all kinds of arguments", "why_tests_cant": "Tests run one channel with one density; a coefficient that is scaled with the wrong power of the skin depth or a particle weight with the wrong profile changes the result only for other densities or coefficients, and tests compare with numbers recorded from the same code.", "anchors": ["wake_t/physics_models/plasma_wakefields/qs_rz_baxevanis/wakefield.py:_get_parabolic_coefficient_fn", "wake_t/physics_models/plasma_wakefields/qs_rz_baxevanis/plasma_particles.py:PlasmaParticles", "wake_t/physics_models/plasma_wakefields/qs_rz_baxevanis/solver.py:calculate_wakefields"]}
{"id": "C175", "title": "Pulses from files are placed on the grid without distortion", "statement": "A laser pulse read from an openPMD file has at every grid point the value of the profile in the file at the radius of this point and at the time (xi_max - xi)/c, so that the beginning of the profile is at the front of the box and the order in time is that of the motion; it does not depend on where the box is. Smoothing the edges multiplies it with a factor between 0 and 1 that depends on the radius only, keeps more than 97 percent within half of the smoothing radius, and suppresses everything beyond this radius to less than a thousandth.", "quantifier": "for all profiles, boxes, numbers of grid points (at least two in each direction), grid points and displacements of the box", "why_tests_cant": "Tests load one file on one grid and compare with recorded numbers; a profile reversed in time, shifted by one grid point, or transposed on a square grid gives a similar-looking pulse, and only a statement about all profiles and grids excludes it.", "anchors": ["wake_t/physics_models/laser/laser_pulse.py:OpenPMDPulse", "wake_t/physics_models/laser/laser_pulse.py:LaserPulse"]}
{"id": "C176", "title": "The laser solver is stable for every step", "statement": "Evolving a laser envelope never amplifies it without limit, whatever the time step, the grid, the phases and a non-negative plasma susceptibility: the energy of two successive levels (transverse gradients, susceptibility and time derivative) does not grow, and it bounds the amplitude at every grid point, so repeated steps of a pulse that fits into the box stay bounded.", "quantifier": "for all grids, steps, ratios of laser and plasma wave number, susceptibilities >= 0, phases, envelopes and numbers of steps", "why_tests_cant": "Stability is a statement about arbitrarily many steps and all initial envelopes; tests run a few hundred steps of a smooth pulse, in which a slowly growing mode at the edge of the grid stays below the noise.", "anchors": ["wake_t/physics_models/laser/envelope_solver.py:evolve_envelope", "wake_t/physics_models/laser/tdma.py:TDMA"]}
{"id": "C177", "title": "Splitting macroparticles does not change the physics", "statement": "In a plasma stage only the distribution of charge in phase space matters, not the number of macroparticles that represent it: if macroparticles of the bunches are replaced by several ones at the same place whose weights add up to the original weight, the wakefields do not change, and in every output the bunch is the original one with its particles split in the same way, also with automatic time steps.", "quantifier": "for all stages with the quasistatic or cold fluid model, both particle shapes, all bunches without injection position, ways of splitting, pushers, time steps and numbers of outputs", "why_tests_cant": "Tests compare two runs with particular particle numbers up to a tolerance; independence holds for every bunch and every way of splitting, through all field updates of a stage.", "anchors": ["wake_t/particles/deposition.py:deposit_3d_distribution", "wake_t/physics_models/plasma_wakefields/qs_rz_baxevanis/wakefield.py:Quasistatic2DWakefield", "wake_t/physics_models/plasma_wakefields/qs_cold_fluid_1x3p.py:NonLinearColdFluidWakefield", "wake_t/beamline_elements/plasma_stage.py:PlasmaStage"]}
{"id": "C178", "title": "The computed laser pulse converges to the solution of the envelope equation", "statement": "Let a smooth axially symmetric field satisfy the envelope equation and vanish in front of the box. The pulse evolved by the centred solver from two levels close to this field stays close to it over any fixed time span: the error in the energy norm is at most the initial error plus a constant times the squares of the time step and the two grid spacings, plus a term for what leaves the box radially.", "quantifier": "for all smooth solutions, susceptibilities >= 0, ratios of wave numbers, grids, steps and numbers of steps within a given region", "why_tests_cant": "Tests compare a few runs at a few resolutions; an error bound over all steps needs stability and consistency together.", "anchors": ["wake_t/physics_models/laser/envelope_solver.py:evolve_envelope", "wake_t/physics_models/laser/tdma.py:TDMA"]}
{"id": "C179", "title": "The ponderomotive force on the plasma is accurate to second order", "statement": "Let a laser pulse of the quasi-static plasma model have an intensity that is a smooth function of position, even across the axis, sampled at the nodes of the grid. Then at every plasma particle within the grid the intensity used for its motion differs from the true one by at most an eighth of the second differences, and the ponderomotive force (the radial derivative of the intensity, obtained from differences between nodes and interpolated) differs from the true derivative by a bound quadratic in both cell sizes, including on and next to the axis. Only inside the outermost radial cell is there an additional error linear in the radial cell size.", "quantifier": "all smooth intensities with bounded curvature, all grids, all positions and numbers of plasma particles, any beam field and earlier contents of the arrays", "why_tests_cant": "Tests compare a few runs with stored numbers; an error of the force of first order near the axis or between the nodes would be recorded as the reference. The order of accuracy is a statement on all pulses and all resolutions.", "anchors": ["wake_t/utilities/other.py:radial_gradient", "wake_t/physics_models/plasma_wakefields/qs_rz_baxevanis/solver.py:calculate_wakefields", "wake_t/particles/interpolation.py:gather_sources_qs_baxevanis"]}
{"id": "C180", "title": "The origin of the longitudinal coordinate is irrelevant for plasma stages", "statement": "If the bunches (with their injection positions), the laser pulse, the simulation box (xi_min and xi_max) and the external fields of a plasma stage are all moved along xi by the same distance, then the bunches returned by track are the original outputs moved by that distance: transverse positions, momenta, weights and propagation distances are equal at every output, as are the arrays of the wakefield and of the laser envelope. This holds for the quasistatic and the cold-fluid model, with and without a laser, for both pushers and for constant and adaptive time steps.", "quantifier": "for every distance, every plasma stage with the quasistatic_2d or cold_fluid_1d model, every list of bunches, every pusher, number of outputs, density profile, laser pulse, grid and external field, and every thread schedule", "why_tests_cant": "A test compares two runs at a time; a single absolute use of xi anywhere in the deposition, interpolation, laser, plasma or injection code would break the symmetry only for some offsets, and rounding hides small effects.", "anchors": ["wake_t/beamline_elements/plasma_stage.py:PlasmaStage", "wake_t/fields/rz_wakefield.py:RZWakefield", "wake_t/physics_models/plasma_wakefields/qs_rz_baxevanis/wakefield.py:Quasistatic2DWakefield", "wake_t/physics_models/plasma_wakefields/qs_cold_fluid_1x3p.py:NonLinearColdFluidWakefield", "wake_t/physics_models/laser/laser_pulse.py:LaserPulse"]}
{"id": "C181", "title": "Inside of a blown-out cavity the focusing is linear and the acceleration uniform", "statement": "In the quasistatic model, wherever the driver has expelled the plasma electrons from the neighbourhood of the axis (uniform ions), the fields gathered at a bunch particle are those of the ideal blowout regime, up to no discretisation error at all: E_x - c B_y grows by exactly m w_p^2 / (2e) times x and E_y + c B_x by the same factor times y (linear, aberration-free, independent of xi and of the bunches), and all particles with the same xi feel the same E_z whatever their transverse position.", "quantifier": "for all plasma columns, drivers (bunches and laser), pushers, boxes and grids, all pairs of adjacent slices in which no plasma ring is within the next radial node, and all particles in that region, on or off the grid nodes", "why_tests_cant": "A test compares the fields of one blowout with stored values or a plot; that the focusing is exactly linear and the acceleration exactly uniform for every driver and resolution depends on the scan for enclosed rings, the finite differences and the interpolation (with the sign change of the fields across the axis) fitting together.", "anchors": ["wake_t/physics_models/plasma_wakefields/qs_rz_baxevanis/psi_and_derivatives.py:calculate_psi", "wake_t/physics_models/plasma_wakefields/qs_rz_baxevanis/solver.py:calculate_wakefields", "wake_t/particles/interpolation.py:gather_main_fields_cyl_linear"]}
{"id": "C182", "title": "Only the charge-to-mass ratio of a species and the charge of its macroparticles matter", "statement": "Replacing a bunch in a plasma stage by one of a different species with the same ratio q_species/m_species, whose macroparticles have the same phase-space coordinates and the same charges (so other weights), changes neither the wakefields nor the trajectories nor the adaptive time steps: every output has the same coordinates and charges. In elements with given fields (quadrupoles, plasma lenses without wakefields, analytical fields) a species whose charge-to-mass ratio is larger by a factor, of either sign, moves along the same trajectories if the fields are weaker by this factor: positrons in a reversed lens behave as electrons in the original one.", "quantifier": "for all species, bunches (several, with injection positions), both pushers, all stages with the quasistatic or cold fluid model with any laser, external fields, fixed or adaptive steps, all factors different from zero", "why_tests_cant": "Tests track electrons with the default species; that charge and mass enter nowhere except through their ratio and the charge of the macroparticles concerns every place where they are read: pushers, deposition, the conversion of charges in the two plasma models and the step size of each element.", "anchors": ["wake_t/particles/particle_bunch.py:ParticleBunch", "wake_t/particles/push/boris_pusher.py:apply_boris_pusher", "wake_t/particles/push/runge_kutta_4.py:apply_rk4_pusher", "wake_t/beamline_elements/plasma_stage.py:PlasmaStage", "wake_t/beamline_elements/field_quadrupole.py:FieldQuadrupole"]}
{"id": "C183", "title": "The deposited density does not jump when particles move", "statement": "The density written to each grid cell is a continuous function of the positions (x, y, z) of all particles as long as they are in the grid, for the linear and the cubic shape, with and without the correction near the axis: nothing jumps when a particle passes from one cell to the next, enters the first or last half cell where its charge is folded back, or crosses the axis.", "quantifier": "for all numbers of particles, charges, grids with at least three cells in each direction, both shapes, with and without correction, all cells of the array and all initial contents", "why_tests_cant": "A test compares the density at chosen positions; the joins between cells are a null set that sampled positions never hit, and there the folding of the shape at the edges and the correction coefficients, which differ from cell to cell, have to agree from both sides.", "anchors": ["wake_t/particles/deposition.py:deposit_3d_distribution", "wake_t/particles/deposition.py:deposit_3d_distribution_linear", "wake_t/particles/deposition.py:deposit_3d_distribution_cubic"]}
{"id": "C184", "title": "The gathered fields do not jump when a particle moves", "statement": "The fields a bunch or plasma particle gathers from a grid are continuous functions of its position as long as it is in the grid. They extend continuously to the axis, where the transverse components contributed by the grid vanish, so a particle passing close to the axis sees no sudden kick.", "quantifier": "for all grids, all field arrays on them, all positions in the grid, for the main fields, scalar fields and the source terms of the plasma particles", "why_tests_cant": "The gather code switches cells and signs by comparisons of floored positions; whether the pieces agree on every cell boundary and on the axis (where the code divides by the radius) cannot be seen from sampled positions.", "anchors": ["wake_t/particles/interpolation.py:gather_main_fields_cyl_linear", "wake_t/particles/interpolation.py:gather_field_cyl_linear", "wake_t/particles/interpolation.py:gather_sources_qs_baxevanis"]}
{"id": "C185", "title": "Final coordinates are smooth functions of the initial ones", "statement": "In an element with given fields and a fixed time step, each output is obtained by applying one map of the six-dimensional phase space to every particle of every bunch of a species, independent of the bunches. This map has as many continuous derivatives as the fields (it is continuous if the fields are continuous, and infinitely differentiable for quadrupoles, lenses and blowout models), so that small changes of the initial coordinates have small effects and transfer matrices can be obtained by differentiation. With the Boris pusher it has an inverse with as many derivatives.", "quantifier": "for all elements, both pushers, all fields and numbers of derivatives (also infinitely many and real analytic), all fixed steps, field update schedules, outputs, species and lists of bunches without a pending injection", "why_tests_cant": "Finite differences at sampled points neither exclude jumps elsewhere nor establish derivatives; the statement has to hold at every point of phase space and for every number of steps.", "anchors": ["wake_t/particles/push/boris_pusher.py:apply_boris_pusher", "wake_t/particles/push/runge_kutta_4.py:apply_rk4_pusher", "wake_t/tracking/tracker.py:Tracker", "wake_t/beamline_elements/field_element.py:FieldElement", "wake_t/fields/gather.py:gather_fields"]}
{"id": "C186", "title": "No numerical heating in active plasma lenses", "statement": "In an ActivePlasmaLens without wakefields with the Boris pusher and a fixed time step, a particle whose betatron phase advance per step is at most 2 keeps its Lorentz factor, and never leaves the amplitude of its initial betatron oscillation: with K = -q g / (m c), momentum P and A = x0^2 + y0^2 + 2 (px0^2 + py0^2) / (K (P + pz0)), the square of its offset from the axis is at most A and the square of its transverse momentum at most K P A, apart from a factor 1/(1 - theta) for each step that the tracking cuts short (the last one, and one before each output if bunches are pushed before the outputs) and one more for the momentum, where theta is the square of half the phase advance per step. The bound does not depend on the number of steps, so there is no secular growth of the amplitude, however long the lens is.", "quantifier": "For all lengths, gradients that focus the species, steps up to the bound, numbers of outputs and bunches, all particles that fly forward, also with large angles, and all outputs.", "why_tests_cant": "A test tracks some particles for some number of steps; that the amplitude does not grow in however many steps, for every step below the limit, follows only from a quantity conserved exactly by the discrete steps.", "anchors": ["wake_t/beamline_elements/active_plasma_lens.py:ActivePlasmaLens", "wake_t/physics_models/em_fields/linear_b_theta.py:LinearBThetaField", "wake_t/particles/push/boris_pusher.py:apply_boris_pusher", "wake_t/tracking/tracker.py:Tracker"]}
{"id": "C187", "title": "Small errors of the fields have small effects on the tracked particles", "statement": "If at all times the fields of an element, whatever the numerical fields have become by their updates, differ by at most e <= 1 in each component from given bounded and Lipschitz continuous fields on the region a particle can reach at the speed of light, then every output of the particle differs in each of the six coordinates from the exact trajectory in the smooth fields by at most C times the sum of the largest time step and e. The fields of the element need not be smooth or continuous (they may be interpolated, or jump from cell to cell of a grid or from update to update). The constant C depends on the smooth fields, the species and the length only, not on the grid, the pusher, the time steps or the number of outputs.", "quantifier": "for all smooth fields with an exact trajectory, all elements whose fields stay within e of them, all e up to 1, all time steps, both pushers, all numbers of outputs and any other bunches", "why_tests_cant": "tests compare single runs at one resolution; that the errors of interpolation and of the solver are not amplified beyond a fixed factor concerns all field errors and all refinements at once", "anchors": ["wake_t/beamline_elements/field_element.py:FieldElement.track", "wake_t/tracking/tracker.py:Tracker.do_tracking", "wake_t/particles/push/runge_kutta_4.py:apply_rk4_pusher", "wake_t/particles/push/boris_pusher.py:apply_boris_pusher", "wake_t/fields/gather.py:gather_fields"]}
{"id": "C188", "title": "Potential and derivatives at given radii", "statement": "The function that returns the wake potential and its derivatives at given radii returns, for particles in any order in memory, the potential of all charge sheets and the uniform ion background, zero at the outermost particle; the radial derivative of this potential; and the sum of the currents of the particles further out as the longitudinal derivative. The radii may be in any order.", "quantifier": "for all particles with positive radii, in every order, and all lists of positive radii", "why_tests_cant": "the function is not called by the package and has no tests; that the last particle in memory is taken for the outermost one shows only once particles have crossed", "anchors": ["wake_t/physics_models/plasma_wakefields/qs_rz_baxevanis/psi_and_derivatives.py:calculate_psi_and_derivatives"]}
{"id": "C189", "title": "Gyration in uniform magnetic fields", "statement": "In a uniform, constant magnetic field, in any direction, the change of the momentum of every particle between the entrance and an output is exactly q/(mc) times its displacement in the laboratory crossed with the field, as on the exact helix, for both pushers and every time step. With the Boris pusher and a field along the axis the particle therefore stays exactly on the circle around its guiding centre with the Larmor radius and keeps its longitudinal momentum; neither the radius nor the guiding centre drift, however coarse the steps.", "quantifier": "for all uniform magnetic fields, species, particles, time steps, numbers of steps and outputs", "why_tests_cant": "that there is no slow drift of radius or guiding centre concerns any number of steps of any length; tests see only what exceeds a tolerance after a few steps", "anchors": ["wake_t/particles/push/boris_pusher.py:apply_boris_pusher", "wake_t/particles/push/runge_kutta_4.py:apply_rk4_pusher", "wake_t/beamline_elements/field_element.py:FieldElement.track", "wake_t/fields/analytical_field.py:AnalyticalField"]}
{"id": "C190", "title": "Density and susceptibility of the plasma are never negative", "statement": "In the fields computed by the quasistatic 2D wakefield model, for any laser pulse and any bunches, the plasma density and the plasma susceptibility handed to the laser solver have no negative cell (guard cells included), and the susceptibility exceeds the density in no cell, provided that the density profile of the plasma column is nowhere negative.", "quantifier": "all grids of positive size with at least two slices, all numbers of particles per cell, all extents of the column, all profile coefficients with a non-negative profile in the column, both plasma pushers, all particle shapes, all gamma limits, all non-negative arrays of the squared laser envelope, all sets of bunches, all cells", "why_tests_cant": "The plasma particles follow trajectories through strongly nonlinear fields, cross the axis and each other and are slowed down at the gamma limit; a test sees a few wakes and cannot exclude a driver for which a ring is deposited with a negative weight, which would make the laser solver unstable.", "anchors": ["wake_t/physics_models/plasma_wakefields/qs_rz_baxevanis/solver.py:calculate_wakefields", "wake_t/physics_models/plasma_wakefields/qs_rz_baxevanis/solver.py:calculate_and_deposit_plasma_column", "wake_t/physics_models/plasma_wakefields/qs_rz_baxevanis/solver.py:update_gamma_and_pz", "wake_t/physics_models/plasma_wakefields/qs_rz_baxevanis/deposition.py:deposit_plasma_particles"]}
{"id": "C191", "title": "Density and susceptibility of the cold fluid", "statement": "The plasma density stored by the cold-fluid wakefield model is at least half of the background density, the susceptibility handed to the laser solver is positive, and both approach those of the exact wake of the driver with the order of the fields when the slices are made shorter.", "quantifier": "all drivers (laser envelope and beam density) given by twice differentiable functions whose exact wake exists, all grids; the positivity of the density for every driver and every grid", "why_tests_cant": "A test compares a wake on one grid with a reference; it does not show that the susceptibility keeps its sign for every driver, nor with which order it converges.", "anchors": ["wake_t/physics_models/plasma_wakefields/qs_cold_fluid_1x3p.py:NonLinearColdFluidWakefield"]}
{"id": "C192", "title": "Order of the plasma pushers", "statement": "With either plasma pusher of the quasi-static model the plasma particles follow their exact motion behind the head of the window with the order of the method: the error of radii and momenta is at most a constant times the fourth power (Runge-Kutta) or the fifth power (Adams-Bashforth) of the length of the slices, also for particles that cross the axis.", "quantifier": "all numbers of particles, all field computations that know the particles only as rings and are smooth near the exact motion, all windows, all slice lengths below a threshold, all slices", "why_tests_cant": "A convergence test looks at one driver and a few resolutions; it cannot give a constant valid for every slice length, and particles that are reflected at the axis are easily missed.", "anchors": ["wake_t/physics_models/plasma_wakefields/qs_rz_baxevanis/plasma_push/ab5.py:evolve_plasma_ab5", "wake_t/physics_models/plasma_wakefields/qs_rz_baxevanis/plasma_push/rk4.py:evolve_plasma_rk4"]}
{"id": "C193", "title": "The arrays of the plasma particles do not interfere", "statement": "The quasistatic solver keeps its particles in arrays that are allocated before each calculation and updated in place by functions that receive up to thirty of them by position. The resulting wakefields are exactly those of a calculation in which every intermediate value has a name of its own: all arrays are different ones, they are passed in the right order, none is overwritten while its old contents are needed, and nothing is read from the memory that the solver has not written.", "quantifier": "for both pushers (and any other name), every plasma column, laser, set of bunches, grid and every content of the memory before the calculation", "why_tests_cant": "An array that is aliased, passed in the wrong place or read one statement too late changes the result by small amounts only for certain drivers and slices, and regression tests only freeze what the code does. Equality with the calculation without shared memory for all inputs is a refinement proof.", "anchors": ["wake_t/physics_models/plasma_wakefields/qs_rz_baxevanis/plasma_particles.py:PlasmaParticles", "wake_t/physics_models/plasma_wakefields/qs_rz_baxevanis/solver.py:evolve_plasma_and_calculate_fields", "wake_t/physics_models/plasma_wakefields/qs_rz_baxevanis/solver.py:calculate_and_deposit_plasma_column", "wake_t/physics_models/plasma_wakefields/qs_rz_baxevanis/plasma_push/ab5.py:evolve_plasma_ab5", "wake_t/physics_models/plasma_wakefields/qs_rz_baxevanis/plasma_push/rk4.py:evolve_plasma_rk4"]}
{"id": "C194", "title": "Bunches do not share their coordinates", "statement": "What is done to one bunch is not seen by another. After any sequence of pushes with either pusher, copies, translations along the beam axis and passages through transfer-matrix elements, the particles of every bunch, the copies and the outputs of elements included, are those that result if each bunch were a value of its own: a copy starts with the coordinates of its original and from then on the two evolve independently, the outputs of an element are snapshots that later tracking does not change, and nothing that earlier pushes left in the preallocated arrays matters.", "quantifier": "for any number of bunches, any sequence of calls on them, any fields, times and steps (also different pushers for the same bunch), and any contents of the memory", "why_tests_cant": "Whether two objects share memory shows only for certain sequences of calls; a test tries a few. Independence for all sequences needs an invariant about which arrays belong to whom, and an induction over the calls.", "anchors": ["wake_t/particles/particle_bunch.py:ParticleBunch.evolve", "wake_t/particles/particle_bunch.py:ParticleBunch.copy", "wake_t/particles/particle_bunch.py:ParticleBunch.reposition_xi", "wake_t/particles/push/runge_kutta_4.py:apply_rk4_pusher", "wake_t/particles/push/boris_pusher.py:apply_boris_pusher", "wake_t/beamline_elements/tm_elements.py:TMElement.track", "wake_t/beamline_elements/tm_elements.py:TMElement._update_input_bunch"]}
{"id": "C195", "title": "Deposition in floating-point arithmetic", "statement": "With rounding after every operation, the sum of the deposition array is the charge of the particles found inside of the grid, up to 200 + 10 N units of rounding of the total absolute charge for N particles (with numbers of 64 bits and ten million particles, seven digits at least), for both shapes, with or without the correction at the axis. No particle, wherever rounding puts it, is written outside of the array, whose bounds the compiled code does not check.", "quantifier": "for every rounding with a relative error of at most ε ≤ 1/1000, all lists of particles (any position, weights of either sign) with N ε ≤ 1, all grids whose cells are resolved by the numbers (position error below an eighth of a cell, εN_r below a tenth), correction coefficients of at most one", "why_tests_cant": "Whether a particle at the very edge of the grid is rounded into a cell that does not exist, or a rounded shape factor leaves the unit interval, depends on single bit patterns that no sample of particles hits; and the loss of charge in sums over millions of particles needs a bound, not an example.", "anchors": ["wake_t/particles/deposition.py:deposit_3d_distribution", "wake_t/particles/deposition.py:deposit_3d_distribution_linear", "wake_t/particles/deposition.py:deposit_3d_distribution_cubic"]}
{"id": "C196", "title": "Gathered fields in floating-point arithmetic", "statement": "With rounding after every operation, the fields gathered for a particle differ from the exactly interpolated ones by at most 40 (n_z + n_r + 3) units of rounding of the largest field value on the grid (plus one unit of the value to which they are added); likewise the source terms of the plasma particles and the general gathering function. A particle that rounding moves into a neighbouring cell still gets nearly the same field. No particle, wherever it is, leads to an access outside of the arrays, whose bounds the compiled code does not check.", "quantifier": "for every rounding with a relative error of at most ε ≤ 1/1000, all particles (for the accuracy: off the axis, and such that rounding of the radius does not decide whether they are inside the grid), all arrays of the size of the grid, all grids with 1000 ε (n_z + n_r + 3) ≤ 1 whose ends are right to half a cell", "why_tests_cant": "The cell of a particle is found by rounding down a rounded number; whether the error of that decision is harmless, at every cell boundary and at the edges of the arrays, depends on bit patterns that a sample of particles does not hit.", "anchors": ["wake_t/particles/interpolation.py:gather_main_fields_cyl_linear", "wake_t/particles/interpolation.py:gather_sources_qs_baxevanis", "wake_t/particles/interpolation.py:gather_field_cyl_linear"]}
{"id": "C197", "title": "Rounding does not heat a bunch in magnetic fields", "statement": "With rounding after every operation, the Boris pusher changes the square of the momentum of a particle in magnetic fields by at most 700 units of rounding per step, and the energy after n steps by at most 1400 n units of rounding, however strong the magnetic fields and however long the steps are. With numbers of 64 bits, the energy after a million steps is right to six digits.", "quantifier": "for every rounding with a relative error of at most ε ≤ 1/1000 (no overflow or underflow), every sequence of time steps and of magnetic fields that depend on time and position in any way, with 700 n ε ≤ 1, every particle", "why_tests_cant": "The energy is kept because large terms cancel; with rounding they cancel only approximately, and whether the remainder is small compared with the momentum for every field strength, including rotations by large angles, cannot be seen from some trajectories.", "anchors": ["wake_t/particles/push/boris_pusher.py:apply_boris_pusher", "wake_t/particles/push/boris_pusher.py:push_momentum", "wake_t/particles/push/boris_pusher.py:apply_half_position_push"]}
{"id": "C198", "title": "Boris step in floating-point arithmetic", "statement": "With rounding after every operation, the momentum push of the Boris pusher differs from the exact one by at most 800 units of rounding of the momentum (plus the momentum that the electric field gives in half a step), however strong the magnetic field and long the step are, even where the electric push cancels the momentum. Each half of the position push adds at most 12 units of rounding of the path of light to the rounding of the position itself.", "quantifier": "for every rounding with a relative error of at most ε ≤ 1/1000 (no overflow or underflow), all fields, time steps and particles", "why_tests_cant": "The rotation adds and subtracts terms that are larger than the result by the square of the rotation vector, and its angle depends on a Lorentz factor that is wrong when the electric push cancels the momentum; that no field and no momentum make these errors grow is a statement about all of them.", "anchors": ["wake_t/particles/push/boris_pusher.py:push_momentum", "wake_t/particles/push/boris_pusher.py:apply_half_position_push"]}
{"id": "C199", "title": "Tracking in floating-point arithmetic follows the exact trajectory", "statement": "A particle that is tracked with the Boris pusher in fields that are bounded and Lipschitz continuous where the particle can be, with rounding after every operation of the pusher and of the clock of the bunch, ends within C (largest time step + number of steps × unit of rounding) of the exact solution of its equations of motion. C depends on the fields, on the tracked time and on the initial state only.", "quantifier": "for all fields that are bounded and Lipschitz continuous within reach of the particle, exact trajectories, roundings with a relative error of at most ε ≤ 1/1000 (no overflow or underflow), and lists of time steps for which the bound is below one", "why_tests_cant": "A test compares with a finer run in the same arithmetic, so it cannot separate rounding from the error of the method, and it sees one field and one unit of rounding; that rounding errors add up at most linearly with the number of steps, with one constant for all steps and all roundings, is a statement about all of them.", "anchors": ["wake_t/particles/push/boris_pusher.py:apply_boris_pusher", "wake_t/tracking/tracker.py:Tracker.do_tracking", "wake_t/tracking/tracker.py:Tracker.evolve_bunch"]}
{"id": "C200", "title": "Correction coefficients of the deposition in floating-point arithmetic", "statement": "With rounding after every operation, the n-th coefficient of the Ruyten correction differs from the exact one by at most 200 n² units of rounding, for both shapes. All coefficients stay below one as long as 1000 nr² units of rounding are below one, so the deposited charge with these coefficients is that of the particles inside of the grid up to (200 + 10 × number of particles) units of rounding.", "quantifier": "for every rounding with a relative error of at most ε (no overflow or underflow), all grids with positive cell sizes, all coefficients with 1000 ε n² ≤ 1, and all lists of particles", "why_tests_cant": "The coefficients are small differences of sums that grow with the square of the radius, and the volumes in the sums are small differences of squares, so rounding errors are amplified; how much depends on the index of the cell, and a test sees a few grids in one arithmetic.", "anchors": ["wake_t/particles/deposition.py:deposit_3d_distribution_linear", "wake_t/particles/deposition.py:deposit_3d_distribution_cubic"]}
{"id": "C201", "title": "Plasma deposition in floating-point arithmetic", "statement": "With rounding after every operation, depositing the plasma particles slice by slice puts their weight on the grid up to (200 + 10 × number of particles) units of rounding, relative to the sum of the moduli of the weights. No particle, at whatever radius, leads to a write outside of the array, and depositing a slice changes only the rows next to it.", "quantifier": "for every rounding with a relative error of at most ε ≤ 1/1000 (no overflow or underflow), both shapes, all grids with positive radial cell size and 10 ε nr ≤ 1, all lists of slices on the grid with any particles at non-negative radii, with at most 1/ε particles in total", "why_tests_cant": "The plasma moves freely, so particles come to lie at any distance from cell boundaries and from the edge of the grid, where a rounding error moves them to the next cell or out of the grid; a test sees a few plasma columns.", "anchors": ["wake_t/physics_models/plasma_wakefields/qs_rz_baxevanis/deposition.py:deposit_plasma_particles", "wake_t/physics_models/plasma_wakefields/qs_rz_baxevanis/deposition.py:deposit_plasma_particles_linear", "wake_t/physics_models/plasma_wakefields/qs_rz_baxevanis/deposition.py:deposit_plasma_particles_cubic"]}
{"id": "C202", "title": "Number of snapshots in floating-point arithmetic", "statement": "With rounding after every operation on times, tracking a stage with n outputs returns the snapshot at the start and one at each multiple of the output interval whose value in single precision does not exceed that of the final time. For moderate n these are all n multiples, or all but the last one, at times within 2 (n + 1) units of rounding of the equidistant ones. The last snapshot, at the end of the stage, is always there.", "quantifier": "for every rounding with a relative error of at most ε, every monotone cast with a relative error of at most η, all stages with 6 n² ε + 3 n η < 1, any bunches, fields and step sizes", "why_tests_cant": "Whether the last output appears depends on the rounding errors of n additions and on which side of a boundary between two numbers of single precision the sum falls, so it changes with the length of the stage and almost every tested length works.", "anchors": ["wake_t/tracking/tracker.py:Tracker.do_tracking", "wake_t/tracking/tracker.py:Tracker.generate_diagnostics", "wake_t/tracking/tracker.py:Tracker.evolve_bunch"]}
{"id": "C203", "title": "Accuracy with numbers of 64 bits", "statement": "With the rounding of IEEE 754 to numbers of 64 bits: the charge that a bunch of up to a million particles deposits is that of its particles inside of the grid to 2·10⁻⁹, with or without the correction near the axis; the weight of a plasma of up to a million particles likewise; a million steps through magnetic fields change the energy of a particle by less than 2·10⁻⁷; and up to a hundred thousand outputs are equidistant to 3·10⁻¹¹ of the duration of the stage, with at most the last one missing.", "quantifier": "for all bunches and plasmas of this size on grids with up to 10⁵ (bunch) or 10¹⁴ (plasma) radial cells, both shapes, all lists of magnetic fields and steps, and all configurations of the tracker (no overflow or underflow)", "why_tests_cant": "The error accumulates over the particles or the steps in an order that depends on the data, so the worst case is not among the tested ones, and a test sees only one rounding of each sum.", "anchors": ["wake_t/particles/deposition.py:deposit_3d_distribution", "wake_t/physics_models/plasma_wakefields/qs_rz_baxevanis/deposition.py:deposit_plasma_particles", "wake_t/particles/push/boris_pusher.py:apply_boris_pusher", "wake_t/tracking/tracker.py:Tracker.do_tracking"]}
{"id": "C204", "title": "Schedule of tracking in floating-point arithmetic", "statement": "With rounding after every operation on times: no interval is skipped or pushed twice (each push of a bunch starts at the rounded end of the previous one, the first at zero), pushes go on until the next one would end beyond the final time, fields are updated at the times obtained by adding their period again and again until the first of them beyond the final time, and pushes that are not made for an output never end beyond it (times compared as the code compares them, in single precision). So a particle in external fields that the tracking returns is within C (largest time step + number of pushes × unit of rounding) of its exact trajectory.", "quantifier": "for every rounding and every cast, all numbers of bunches, fields and outputs and all time steps, constant or automatic; for the distance from the trajectory: all roundings with a relative error of at most ε ≤ 1/1000, smooth fields, pushes of non-negative duration, and steps for which the bound is below one", "why_tests_cant": "The clocks of bunches, fields and outputs are separate sums with their own rounding errors, and their order at equal times depends on these errors, which a test with a few lengths does not explore.", "anchors": ["wake_t/tracking/tracker.py:Tracker.do_tracking", "wake_t/tracking/tracker.py:Tracker.evolve_bunch", "wake_t/particles/push/boris_pusher.py:apply_boris_pusher"]}
{"id": "C205", "title": "Tracking ends with all snapshots for almost all final times", "statement": "With IEEE numbers of 64 bits for the times and the casts to single precision of the code, Tracker.do_tracking returns after a bounded number of iterations, with exactly n_diags + 1 copies of each bunch at times that are equidistant up to rounding, whenever t_final is a number of single precision, or is not closer than a thousandth of their distance to the middle between two such numbers and does not round to a power of two, the time steps are at least 2^-49 of it and 1 <= n_diags <= 100000.", "quantifier": "for every number of bunches and fields, every constant or adaptive time step bounded below, every number of outputs up to a hundred thousand and every final time with this property", "why_tests_cant": "for other final times the loop can repeat a tiny step for ever or lose the last snapshot (C06, C202); that no combination of steps does this for the final times here is a statement about all roundings of all clocks", "anchors": ["wake_t/tracking/tracker.py:Tracker.do_tracking", "wake_t/tracking/tracker.py:Tracker.evolve_bunch"]}
{"id": "C206", "title": "Bunches end at the final time in double precision", "statement": "With IEEE numbers of 64 bits for the times and the casts to single precision of the code, Tracker.do_tracking pushes each bunch in steps that follow each other from time zero to the final time, up to 3e-7 of it, for almost all final times (those of C205 that are not themselves close to a power of two), if the bunches are pushed before the outputs or the bunch is pushed at all.", "quantifier": "for every number of bunches and fields, every constant or adaptive time step of at least 2^-49 of the final time, every number of outputs from one to a hundred thousand, every such final time", "why_tests_cant": "the last step is cut with rounded times and compared after a cast; whether some combination of steps leaves a bunch before the end is a statement about all roundings of all clocks", "anchors": ["wake_t/tracking/tracker.py:Tracker.do_tracking", "wake_t/tracking/tracker.py:Tracker.evolve_bunch"]}
