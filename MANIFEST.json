{
 "claims": [
  {
   "property": "C01",
   "status": "partial",
   "theorems": [
    "WakeT.Tracker.bunches_end_at_final_time",
    "WakeT.Tracker.bunches_arrive_single_precision",
    "WakeT.Tracker.bunch_never_pushed_witness",
    "WakeT.Tracker.overshoot_witness"
   ],
   "note": "Holds when the float32 cast is injective and (bunches are pushed before diagnostics or the first step fits into the tracking). The code violates the unrestricted claim: two witnesses."
  },
  {
   "property": "C02",
   "status": "proved",
   "theorems": [
    "WakeT.Tracker.pushes_contiguous",
    "WakeT.Tracker.pushes_tile"
   ],
   "note": "For every monotone cast."
  },
  {
   "property": "C03",
   "status": "proved",
   "theorems": [
    "WakeT.Tracker.events_in_order"
   ],
   "note": "Times compared as the code compares them (after the cast)."
  },
  {
   "property": "C04",
   "status": "proved",
   "theorems": [
    "WakeT.Tracker.snapshot_times",
    "WakeT.Tracker.snapshots_synchronised",
    "WakeT.Tracker.snapshots_replay"
   ],
   "note": "Assumes the cast separates t_final from one diagnostics period later."
  },
  {
   "property": "C05",
   "status": "proved",
   "theorems": [
    "WakeT.Tracker.field_updates",
    "WakeT.Tracker.field_updates_count",
    "WakeT.Fields.field_clock_is_tracking_time",
    "WakeT.Fields.reused_field_clock",
    "WakeT.Fields.field_update_effect"
   ],
   "note": "Schedule in the tracker; internal clock for a field that has not been used before. A field object reused in a second tracking keeps its old clock (reused_field_clock)."
  },
  {
   "property": "C06",
   "status": "partial",
   "theorems": [
    "WakeT.Tracker.tracking_terminates",
    "WakeT.Tracker.zero_step_never_ends",
    "WakeT.Tracker.Rounded.iterations_partial",
    "WakeT.Tracker.Rounded.tiny_steps_violated",
    "WakeT.Tracker.Rounded.never_ends_violated",
    "WakeT.Tracker.Rounded.ends_rounded",
    "WakeT.Tracker.Rounded.ends_double"
   ],
   "note": "Explicit bound on the iterations for exact times and a cast that separates all numbers (tracking_terminates, iterations_partial); zero steps diverge. With numbers of 64 bits and the casts to single precision of the code the bound is violated: the cut of the last step can leave a step of two units of rounding, which is then repeated until the time passes the next number of single precision, more than 2^28 times, although the given time step is more than half of the stage (tiny_steps_violated). If the final time is just below a power of two, a step of one unit of rounding can remain; once the time of the bunch is the power of two, adding the step no longer changes it and the loop never ends, for every unit of time (never_ends_violated). If the final time is itself a number of single precision, tracking with numbers of 64 bits ends, with an explicit bound (ends_double); for almost all other final times see complete_typical (C205); ends_rounded is the same for a general rounding and cast."
  },
  {
   "property": "C07",
   "status": "proved",
   "theorems": [
    "WakeT.Tracker.same_time_order"
   ],
   "note": "Pushes forced by diagnostics come after field updates of the same time."
  },
  {
   "property": "C08",
   "status": "partial",
   "theorems": [
    "WakeT.Tracker.no_diags_never_returns",
    "WakeT.Tracker.no_diags_raises"
   ],
   "note": "The code violates the property: with n_diags=0 tracking always raises. The theorems prove the violation."
  },
  {
   "property": "C09",
   "status": "proved",
   "theorems": [
    "WakeT.Fields.adjustDt_spec",
    "WakeT.Fields.adjustDt_idempotent",
    "WakeT.Fields.adjustDt_off",
    "WakeT.Fields.adjustDt_zero_length"
   ],
   "note": "Zero stage length is the excluded case (the code divides by zero)."
  },
  {
   "property": "C10",
   "status": "partial",
   "theorems": [
    "WakeT.Fields.superposition_partial",
    "WakeT.Fields.gather_order_irrelevant",
    "WakeT.Fields.stage_superposition",
    "WakeT.Fields.superposition_fails"
   ],
   "note": "Holds for lists in which no assigning field comes after another field that sets the same component (all stages of the library satisfy it). False in general: the blowout field assigns instead of adding (superposition_fails)."
  },
  {
   "property": "C11",
   "status": "proved",
   "theorems": [
    "WakeT.Fields.gather_schedule_irrelevant",
    "WakeT.interleaving_irrelevant",
    "WakeT.Push.boris_schedule_irrelevant",
    "WakeT.Push.rk4_schedule_irrelevant"
   ],
   "note": "All loops of gathering and of both pushers; every order of the iterations and every interleaving of their elementary steps."
  },
  {
   "property": "C12",
   "status": "proved",
   "theorems": [
    "WakeT.Interp.regrid_in_bounds",
    "WakeT.Interp.regrid_bilinear",
    "WakeT.Interp.regrid_node",
    "WakeT.Interp.regrid_range"
   ],
   "note": "At least two radial nodes (with one node the code reads index -1, which numba wraps)."
  },
  {
   "property": "C13",
   "status": "proved",
   "theorems": [
    "WakeT.Interp.gather_in_bounds",
    "WakeT.Interp.gather_outside",
    "WakeT.Interp.gather_exact",
    "WakeT.Interp.gather_near_axis",
    "WakeT.Interp.gather_rotation",
    "WakeT.Interp.gather_accumulates",
    "WakeT.Interp.gather_on_axis_fails",
    "WakeT.Interp.gather_node"
   ],
   "note": "Off axis; exactly on the axis the code divides by zero (gather_on_axis_fails)."
  },
  {
   "property": "C14",
   "status": "proved",
   "theorems": [
    "WakeT.Deposition.charge_conserved",
    "WakeT.Deposition.deposit_accepts",
    "WakeT.Deposition.outside_no_effect"
   ],
   "note": "Exact arithmetic."
  },
  {
   "property": "C15",
   "status": "partial",
   "theorems": [
    "WakeT.Deposition.cubic_profile",
    "WakeT.Deposition.cubic_physical",
    "WakeT.Deposition.linear_profile_partial",
    "WakeT.Deposition.linear_profile_long_grid",
    "WakeT.Deposition.linear_wrong_slice",
    "WakeT.Deposition.cubic_small_grid_guard"
   ],
   "note": "Proved for cubic shapes (n >= 2 cells) and for linear shapes when r_cell <= nz-1. The linear code tests r_cell instead of z_cell (line 120) and deposits into the wrong slice otherwise: linear_wrong_slice."
  },
  {
   "property": "C16",
   "status": "proved",
   "theorems": [
    "WakeT.Deposition.writes_in_bounds",
    "WakeT.Deposition.ruyten_index_in_bounds"
   ],
   "note": "Every grid with positive spacings."
  },
  {
   "property": "C17",
   "status": "proved",
   "theorems": [
    "WakeT.Deposition.linear_centroid",
    "WakeT.Deposition.cubic_centroid",
    "WakeT.Deposition.writes_nonneg"
   ],
   "note": ""
  },
  {
   "property": "C18",
   "status": "proved",
   "theorems": [
    "WakeT.Deposition.ruyten_uniform_linear"
   ],
   "note": "Interval integral over the radius of a unit particle, over the reals."
  },
  {
   "property": "C19",
   "status": "proved",
   "theorems": [
    "WakeT.Deposition.deposit_perm",
    "WakeT.Deposition.deposit_split",
    "WakeT.Deposition.deposit_superpose",
    "WakeT.Deposition.deposit_weight_add"
   ],
   "note": "Exact arithmetic."
  },
  {
   "property": "C20",
   "status": "partial",
   "theorems": [
    "WakeT.Interp.adjoint_partial",
    "WakeT.Interp.adjoint_long_grid",
    "WakeT.Interp.adjoint_fails"
   ],
   "note": "Proved for nr <= nz; false for particles with r_cell > nz-1 (the line-120 bug): adjoint_fails."
  },
  {
   "property": "C21",
   "status": "proved",
   "theorems": [
    "WakeT.Bunch.matrix_roundtrip",
    "WakeT.Bunch.bunch_matrix_roundtrip",
    "WakeT.Bunch.matrix_rows"
   ],
   "note": ""
  },
  {
   "property": "C22",
   "status": "partial",
   "theorems": [
    "WakeT.Bunch.alternative_roundtrip_partial",
    "WakeT.Bunch.alternative_roundtrip_iff",
    "WakeT.Bunch.alternative_roundtrip_fails",
    "WakeT.Bunch.alternative_energy",
    "WakeT.Bunch.alternative_particle_iff"
   ],
   "note": "Violated by the code: dp is divided by gamma*beta when read and multiplied by gamma when set. Proved: the round trip holds exactly for bunches without energy spread."
  },
  {
   "property": "C23",
   "status": "partial",
   "theorems": [
    "WakeT.Bunch.copy_same_data",
    "WakeT.Bunch.copy_behaves_partial",
    "WakeT.Bunch.copy_fails",
    "WakeT.Bunch.copy_drops",
    "WakeT.Bunch.same_data_run"
   ],
   "note": "Violated by the code: copy drops z_injection, tags and t_flight; a copy of a bunch before its injection point is accelerated, the original is not. Proved for bunches without injection point."
  },
  {
   "property": "C24",
   "status": "proved",
   "theorems": [
    "WakeT.Bunch.charge_setter"
   ],
   "note": ""
  },
  {
   "property": "C25",
   "status": "proved",
   "theorems": [
    "WakeT.Bunch.reposition_centre",
    "WakeT.Bunch.reposition_twice"
   ],
   "note": ""
  },
  {
   "property": "C26",
   "status": "proved",
   "theorems": [
    "WakeT.Bunch.prop_distance_adds",
    "WakeT.Bunch.unknown_pusher_raises",
    "WakeT.Bunch.run_succeeds"
   ],
   "note": ""
  },
  {
   "property": "C27",
   "status": "proved",
   "theorems": [
    "WakeT.Bunch.ballistic_before_injection",
    "WakeT.Bunch.fields_act_after_injection"
   ],
   "note": ""
  },
  {
   "property": "C28",
   "status": "proved",
   "theorems": [
    "WakeT.Push.boris_magnetic_no_work"
   ],
   "note": "Fields may depend on position and time."
  },
  {
   "property": "C29",
   "status": "proved",
   "theorems": [
    "WakeT.Push.boris_reversible"
   ],
   "note": ""
  },
  {
   "property": "C30",
   "status": "proved",
   "theorems": [
    "WakeT.Push.free_drift",
    "WakeT.Push.drift_slower_than_light",
    "WakeT.Push.free_xi_antitone"
   ],
   "note": ""
  },
  {
   "property": "C31",
   "status": "proved",
   "theorems": [
    "WakeT.Push.rk4_is_classical"
   ],
   "note": ""
  },
  {
   "property": "C32",
   "status": "proved",
   "theorems": [
    "WakeT.Push.push_zero",
    "WakeT.Bunch.evolve_zero"
   ],
   "note": ""
  },
  {
   "property": "C33",
   "status": "proved",
   "theorems": [
    "WakeT.Push.uniform_electric_exact"
   ],
   "note": "Any mixture of both pushers."
  },
  {
   "property": "C34",
   "status": "proved",
   "theorems": [
    "WakeT.TransferMatrix.first_order_compose",
    "WakeT.TransferMatrix.first_order_zero"
   ],
   "note": "All branches (trigonometric, hyperbolic, zero gradient); reference gamma > 1 or 0 (the ultra-relativistic limit of the code)."
  },
  {
   "property": "C35",
   "status": "proved",
   "theorems": [
    "WakeT.TransferMatrix.first_order_symplectic",
    "WakeT.TransferMatrix.first_order_det"
   ],
   "note": "xi is counted backwards, hence the sign of the last block of the form."
  },
  {
   "property": "C36",
   "status": "proved",
   "theorems": [
    "WakeT.TransferMatrix.ocelot_roundtrip",
    "WakeT.TransferMatrix.ocelot_roundtrip'",
    "WakeT.TransferMatrix.ocelot_roundtrip_backwards"
   ],
   "note": "Both directions; the last theorem shows the condition pz >= 0 is needed."
  },
  {
   "property": "C37",
   "status": "proved",
   "theorems": [
    "WakeT.TransferMatrix.rotation_add",
    "WakeT.TransferMatrix.rotation_zero",
    "WakeT.TransferMatrix.rotation_back",
    "WakeT.TransferMatrix.rotation_rigid"
   ],
   "note": ""
  },
  {
   "property": "C38",
   "status": "proved",
   "theorems": [
    "WakeT.Element.n_out_irrelevant",
    "WakeT.Element.n_out_irrelevant_drift"
   ],
   "note": "Particle momenta forward and reference gamma > 1 as stated in the hypotheses; the drift theorem covers second order."
  },
  {
   "property": "C39",
   "status": "partial",
   "theorems": [
    "WakeT.Element.outputs_positions_partial",
    "WakeT.Element.step_fits_fresh",
    "WakeT.Element.output_is_subelement",
    "WakeT.Element.outputs_stale_violated",
    "WakeT.Element.outputs_rounding_violated"
   ],
   "note": "Proved when the CSR step fits, in particular for calculators not cleared before. False in the code after the calculator was cleared, and false when the quotient of length and step is rounded down."
  },
  {
   "property": "C40",
   "status": "partial",
   "theorems": [
    "WakeT.Element.bunch_updated_partial",
    "WakeT.Element.bunch_updated_violated"
   ],
   "note": "False in the code for out_initial=True without n_out; proved for all other combinations."
  },
  {
   "property": "C41",
   "status": "proved",
   "theorems": [
    "WakeT.Element.reference_orbit",
    "WakeT.Element.reference_split",
    "WakeT.Element.chicane_closes"
   ],
   "note": ""
  },
  {
   "property": "C42",
   "status": "partial",
   "theorems": [
    "WakeT.Element.element_reuse_partial",
    "WakeT.Element.element_reuse_violated"
   ],
   "note": "False in the code for elements without explicit gamma_ref; proved for elements with gamma_ref and without CSR."
  },
  {
   "property": "C43",
   "status": "proved",
   "theorems": [
    "WakeT.TransferMatrix.second_order_drift_compose"
   ],
   "note": "Exact composition."
  },
  {
   "property": "C44",
   "status": "proved",
   "theorems": [
    "WakeT.Beamline.line_single",
    "WakeT.Beamline.line_append",
    "WakeT.Beamline.line_numbered",
    "WakeT.Beamline.line_recorded",
    "WakeT.Beamline.line_from_zero"
   ],
   "note": "The composition theorems hold for arbitrary elements; the theorems on diagnostics are for transfer-map elements (positions: without CSR)."
  },
  {
   "property": "C45",
   "status": "proved",
   "theorems": [
    "WakeT.Beamline.write_atomic"
   ],
   "note": ""
  },
  {
   "property": "C46",
   "status": "proved",
   "theorems": [
    "WakeT.Stage.ramp_shape",
    "WakeT.Stage.ramp_names"
   ],
   "note": "All three built-in profiles, derived or given decay length."
  },
  {
   "property": "C47",
   "status": "partial",
   "theorems": [
    "WakeT.Stage.auto_dt_partial",
    "WakeT.Stage.auto_dt_monotone",
    "WakeT.Stage.auto_dt_lens",
    "WakeT.Stage.auto_dt_violated",
    "WakeT.Stage.auto_dt_lens_violated",
    "WakeT.Stage.auto_dt_backward_violated"
   ],
   "note": "Proved for densities whose maximum is sampled (constant, monotonic, ramps), for quadrupoles and lenses without wakefields. False in the code for maxima between the 100 samples and for lenses with wakefields; bunches with backward moving particles are outside the claim, with a witness that it fails there."
  },
  {
   "property": "C48",
   "status": "partial",
   "theorems": [
    "WakeT.Laser.tdma_partial",
    "WakeT.Laser.tdma_last",
    "WakeT.Laser.tdma_exact_iff",
    "WakeT.Laser.tdma_violated",
    "WakeT.Laser.row_unique"
   ],
   "note": "All equations but the last hold; the last one is violated because the code uses a[-2] and w[-2] (index n-3) there (tdma_violated); tdma_exact_iff says exactly when the result is right."
  },
  {
   "property": "C49",
   "status": "proved",
   "theorems": [
    "WakeT.Laser.unwrap_spec",
    "WakeT.Laser.unwrap_unique",
    "WakeT.Laser.unwrap_diff"
   ],
   "note": ""
  },
  {
   "property": "C50",
   "status": "proved",
   "theorems": [
    "WakeT.Laser.sweep_two_level",
    "WakeT.Laser.evolve_two_level",
    "WakeT.Laser.levels_exist",
    "WakeT.Laser.row_local"
   ],
   "note": "Both solvers, any number of steps and rows."
  },
  {
   "property": "C51",
   "status": "partial",
   "theorems": [
    "WakeT.Laser.set_raises_iff_partial",
    "WakeT.Laser.set_same_grid",
    "WakeT.Laser.grid_change_violated",
    "WakeT.Laser.reset_grid_change_violated"
   ],
   "note": "The error is raised only if all five grid parameters change at once; changing some is accepted and the solver is then called with arrays of another shape."
  },
  {
   "property": "C52",
   "status": "partial",
   "theorems": [
    "WakeT.Laser.addAll_spec",
    "WakeT.Laser.add_order",
    "WakeT.Laser.add_assoc_env",
    "WakeT.Laser.add_pol_partial",
    "WakeT.Laser.add_pol_violated",
    "WakeT.Laser.add_xiC_violated"
   ],
   "note": "Envelopes add in any order and grouping, different wavelengths are rejected; circular polarization is lost."
  },
  {
   "property": "C53",
   "status": "proved",
   "theorems": [
    "WakeT.Laser.flattened_peak",
    "WakeT.Laser.flattened_env",
    "WakeT.Laser.flatCoeff_sum"
   ],
   "note": ""
  },
  {
   "property": "C54",
   "status": "proved",
   "theorems": [
    "WakeT.Laser.GaussPar.gaussian_magnitude",
    "WakeT.Laser.GaussPar.gaussian_peak",
    "WakeT.Laser.GaussPar.gaussian_le",
    "WakeT.Laser.GaussPar.gaussian_power",
    "WakeT.Laser.GaussPar.gaussian_fwhm"
   ],
   "note": ""
  },
  {
   "property": "C55",
   "status": "proved",
   "theorems": [
    "WakeT.Laser.group_velocity",
    "WakeT.Laser.groupVelocity_eq"
   ],
   "note": "The code returns the velocity in units of c."
  },
  {
   "property": "C56",
   "status": "proved",
   "theorems": [
    "WakeT.Plasma.column_r",
    "WakeT.Plasma.column_count",
    "WakeT.Plasma.column_charge",
    "WakeT.Plasma.column_neutral"
   ],
   "note": "Readjusted column radius; the parabolic case has an exact deficit."
  },
  {
   "property": "C57",
   "status": "proved",
   "theorems": [
    "WakeT.Plasma.column_self_force",
    "WakeT.Plasma.uniform_column_quiet",
    "WakeT.Plasma.rest_dxi"
   ],
   "note": ""
  },
  {
   "property": "C58",
   "status": "proved",
   "theorems": [
    "WakeT.Plasma.psi_direct_sum",
    "WakeT.Plasma.psi_order_irrelevant"
   ],
   "note": ""
  },
  {
   "property": "C59",
   "status": "partial",
   "theorems": [
    "WakeT.Plasma.drPsi_is_derivative",
    "WakeT.Plasma.deltaPsi_continuous",
    "WakeT.Plasma.gauss_between",
    "WakeT.Plasma.dxi_error",
    "WakeT.Plasma.dxi_is_derivative_partial",
    "WakeT.Plasma.dxi_violated"
   ],
   "note": "The longitudinal derivative is wrong for a parabolic profile (r_max instead of r_max**4 in the outer boundary term): witness and exact error term."
  },
  {
   "property": "C60",
   "status": "proved",
   "theorems": [
    "WakeT.Plasma.K_ge_one",
    "WakeT.Plasma.axis_solves",
    "WakeT.Plasma.axis_unique",
    "WakeT.Plasma.bTheta_grid",
    "WakeT.Plasma.solves_unique"
   ],
   "note": ""
  },
  {
   "property": "C61",
   "status": "partial",
   "theorems": [
    "WakeT.Plasma.gamma_pz",
    "WakeT.Plasma.gamma_pz_slice",
    "WakeT.Plasma.column_gamma_partial",
    "WakeT.Plasma.slowDown_violated",
    "WakeT.Plasma.weights_pos",
    "WakeT.Plasma.wRho_eq"
   ],
   "note": "Violated for particles slowed down because of max_gamma: witness. All other particles: proved."
  },
  {
   "property": "C62",
   "status": "proved",
   "theorems": [
    "WakeT.Plasma.ab5_exact",
    "WakeT.Plasma.ab5_order_sharp",
    "WakeT.Plasma.ab5_history",
    "WakeT.Plasma.ab5_follows"
   ],
   "note": "The history starts with zeros, so the first four pushes are of lower order (part of ab5_history)."
  },
  {
   "property": "C63",
   "status": "proved",
   "theorems": [
    "WakeT.Plasma.ab5_mirror",
    "WakeT.Plasma.ab5_mirror_run",
    "WakeT.Plasma.substep_eq",
    "WakeT.Plasma.rk4_reflects",
    "WakeT.Plasma.rk4_mirror"
   ],
   "note": "For field computations that treat particles as rings (hypothesis Symmetric)."
  },
  {
   "property": "C64",
   "status": "partial",
   "theorems": [
    "WakeT.Plasma.plasma_conserved",
    "WakeT.Plasma.plasma_own_slice_partial",
    "WakeT.Plasma.plasma_own_slice_long_grid",
    "WakeT.Plasma.plasma_wrong_slice",
    "WakeT.Plasma.plasma_wrong_slice_square",
    "WakeT.Plasma.plasma_cubic_slices",
    "WakeT.Plasma.plasma_cubic_uniform"
   ],
   "note": "Violated for the linear shape when nr >= nz: witnesses."
  },
  {
   "property": "C65",
   "status": "proved",
   "theorems": [
    "WakeT.Plasma.beam_ampere",
    "WakeT.Plasma.beam_outside",
    "WakeT.Plasma.beam_superpose",
    "WakeT.Plasma.beam_total"
   ],
   "note": ""
  },
  {
   "property": "C66",
   "status": "proved",
   "theorems": [
    "WakeT.ColdFluid.fluid_rk4",
    "WakeT.ColdFluid.quiet",
    "WakeT.ColdFluid.causal",
    "WakeT.ColdFluid.causal_Ez",
    "WakeT.ColdFluid.quiet_ahead"
   ],
   "note": ""
  },
  {
   "property": "C67",
   "status": "partial",
   "theorems": [
    "WakeT.CSR.steps_fit",
    "WakeT.CSR.steps_coarsest",
    "WakeT.CSR.csr_step_partial",
    "WakeT.CSR.csr_step_stale",
    "WakeT.CSR.csr_step_violated"
   ],
   "note": "False in the code after a non-empty calculator was cleared; proved otherwise."
  },
  {
   "property": "C68",
   "status": "proved",
   "theorems": [
    "WakeT.CSR.trajectory_unit_speed",
    "WakeT.CSR.trajectory_points",
    "WakeT.CSR.trajectory_continuous",
    "WakeT.CSR.trajectory_tangent"
   ],
   "note": ""
  },
  {
   "property": "C69",
   "status": "proved",
   "theorems": [
    "WakeT.CSR.start_index_exact"
   ],
   "note": "The search point is behind the first trajectory point and the scan has at least two points, as in the code."
  },
  {
   "property": "C70",
   "status": "proved",
   "theorems": [
    "WakeT.BunchGen.twiss_charge",
    "WakeT.BunchGen.size_charge",
    "WakeT.BunchGen.plane_coefficients",
    "WakeT.BunchGen.twiss_moments",
    "WakeT.BunchGen.size_moments",
    "WakeT.BunchGen.twiss_bunch",
    "WakeT.BunchGen.size_bunch",
    "WakeT.BunchGen.matched_bunch"
   ],
   "note": "Random numbers are parameters; moments are taken with any average for which the random numbers are standard and uncorrelated."
  },
  {
   "property": "C71",
   "status": "proved",
   "theorems": [
    "WakeT.BunchGen.loaded_centred",
    "WakeT.BunchGen.species_selection"
   ],
   "note": "File reading is a parameter."
  },
  {
   "property": "C72",
   "status": "proved",
   "theorems": [
    "WakeT.Util.radial_exact",
    "WakeT.Util.radial_linear",
    "WakeT.Util.radialGradient_eq",
    "WakeT.Util.radial_congr"
   ],
   "note": "At the outermost node the value is the derivative half a cell inside."
  },
  {
   "property": "C73",
   "status": "proved",
   "theorems": [
    "WakeT.Deposition.ruyten_uniform_cubic"
   ],
   "note": "nr >= 3."
  },
  {
   "property": "C74",
   "status": "proved",
   "theorems": [
    "WakeT.Push.boris_centred",
    "WakeT.Push.centred_unique"
   ],
   "note": ""
  },
  {
   "property": "C75",
   "status": "partial",
   "theorems": [
    "WakeT.Bunch.pushes_in_bounds_partial",
    "WakeT.Bunch.new_fits",
    "WakeT.Bunch.push_out_of_bounds"
   ],
   "note": "Violated by the code when the number of particles is changed after the first push. Proved for bunches whose number of particles is unchanged."
  },
  {
   "property": "C76",
   "status": "proved",
   "theorems": [
    "WakeT.Bunch.unnamed_distinct",
    "WakeT.Bunch.unnamed_count"
   ],
   "note": ""
  },
  {
   "property": "C77",
   "status": "proved",
   "theorems": [
    "WakeT.TransferMatrix.first_order_motion",
    "WakeT.TransferMatrix.first_order_zero"
   ],
   "note": ""
  },
  {
   "property": "C78",
   "status": "partial",
   "theorems": [
    "WakeT.TransferMatrix.second_order_compose_partial",
    "WakeT.TransferMatrix.second_order_compose_magnet_partial",
    "WakeT.TransferMatrix.second_order_compose_violated",
    "WakeT.TransferMatrix.second_order_motion_violated",
    "WakeT.TransferMatrix.second_order_resonance_violated"
   ],
   "note": "Proved for straight elements and bends without gradients, and for combined-function magnets component by component wherever the code has the right coefficients. False in the code for the remaining combined-function magnets: three witnesses (missing factor in line 136, formula for J3, limits on the resonance)."
  },
  {
   "property": "C79",
   "status": "proved",
   "theorems": [
    "WakeT.TransferMatrix.second_order_motion_bend",
    "WakeT.TransferMatrix.second_order_motion_straight"
   ],
   "note": ""
  },
  {
   "property": "C80",
   "status": "partial",
   "theorems": [
    "WakeT.CSR.csr_position_partial",
    "WakeT.CSR.csr_position_violated"
   ],
   "note": "False in the code for an element object that occurs twice; proved for distinct elements."
  },
  {
   "property": "C81",
   "status": "proved",
   "theorems": [
    "WakeT.Element.split_element"
   ],
   "note": "Every particle moves forward where the element is cut."
  },
  {
   "property": "C82",
   "status": "partial",
   "theorems": [
    "WakeT.Element.track_returns_partial",
    "WakeT.Element.generic_element_violated"
   ],
   "note": "False in the code for the base class with the default progress bar; proved otherwise."
  },
  {
   "property": "C83",
   "status": "partial",
   "theorems": [
    "WakeT.Element.backtrack_ignored",
    "WakeT.Element.backtrack_violated"
   ],
   "note": "False in the code: the option does not change the map. No part of the property holds; backtrack_ignored states what happens instead."
  },
  {
   "property": "C84",
   "status": "partial",
   "theorems": [
    "WakeT.Beamline.line_outputs_partial",
    "WakeT.Beamline.several_bunches_violated"
   ],
   "note": "Proved for elements that return a flat list (one bunch); false in the code for several bunches."
  },
  {
   "property": "C85",
   "status": "proved",
   "theorems": [
    "WakeT.Stage.lens_focus",
    "WakeT.Stage.quad_focus",
    "WakeT.Stage.blowout_focus",
    "WakeT.Stage.betatron_force"
   ],
   "note": ""
  },
  {
   "property": "C86",
   "status": "proved",
   "theorems": [
    "WakeT.Stage.magnets_maxwell",
    "WakeT.Stage.blowout_gauss",
    "WakeT.Stage.custom_blowout",
    "WakeT.Stage.simple_blowout_moves",
    "WakeT.Stage.simple_blowout_phase"
   ],
   "note": ""
  },
  {
   "property": "C87",
   "status": "partial",
   "theorems": [
    "WakeT.Laser.evolve_equation_partial",
    "WakeT.Laser.first_step_equation_partial",
    "WakeT.Laser.centered_equation_partial",
    "WakeT.Laser.nonCentered_equation_partial",
    "WakeT.Laser.diffZ_exact",
    "WakeT.Laser.lapl_exact"
   ],
   "note": "At all radial points but the outermost, where the tridiagonal solver is wrong (C48)."
  },
  {
   "property": "C88",
   "status": "proved",
   "theorems": [
    "WakeT.Laser.envelope_pivots",
    "WakeT.Laser.Dominant.pivots"
   ],
   "note": ""
  },
  {
   "property": "C89",
   "status": "proved",
   "theorems": [
    "WakeT.Laser.GaussPar.gaussian_paraxial"
   ],
   "note": ""
  },
  {
   "property": "C90",
   "status": "proved",
   "theorems": [
    "WakeT.Laser.centered_needs_same_step",
    "WakeT.Laser.second_step_centered",
    "WakeT.Laser.nonCentered_ignores_old",
    "WakeT.Laser.set_same_grid"
   ],
   "note": ""
  },
  {
   "property": "C91",
   "status": "proved",
   "theorems": [
    "WakeT.Plasma.U_ge_one",
    "WakeT.Plasma.edge_eq_axis"
   ],
   "note": ""
  },
  {
   "property": "C92",
   "status": "partial",
   "theorems": [
    "WakeT.ColdFluid.beam_off_partial",
    "WakeT.ColdFluid.beam_off_difference",
    "WakeT.ColdFluid.beam_off_violated"
   ],
   "note": "E_r and B_t depend on the beam in any case; potential, E_z, the force on relativistic particles, density and susceptibility do not."
  },
  {
   "property": "C93",
   "status": "proved",
   "theorems": [
    "WakeT.ColdFluid.fluid_relations"
   ],
   "note": ""
  },
  {
   "property": "C94",
   "status": "partial",
   "theorems": [
    "WakeT.BunchGen.save_load_partial",
    "WakeT.BunchGen.save_load_violated"
   ],
   "note": "The propagation distance is not written: a propagated bunch comes back at distance zero. Proved for everything else."
  },
  {
   "property": "C95",
   "status": "proved",
   "theorems": [
    "WakeT.Plasma.QS.causal"
   ],
   "note": "For runs that end, which all do (C98)."
  },
  {
   "property": "C96",
   "status": "proved",
   "theorems": [
    "WakeT.Plasma.QS.no_memory"
   ],
   "note": ""
  },
  {
   "property": "C97",
   "status": "proved",
   "theorems": [
    "WakeT.Plasma.QS.panofsky_wenzel"
   ],
   "note": ""
  },
  {
   "property": "C98",
   "status": "proved",
   "theorems": [
    "WakeT.Plasma.QS.total",
    "WakeT.Plasma.QS.total_args",
    "WakeT.Plasma.QS.refused"
   ],
   "note": "Divisions by zero (a plasma particle exactly on the axis) are not part of the claim."
  },
  {
   "property": "C99",
   "status": "proved",
   "theorems": [
    "WakeT.Plasma.QS.shift_invariant"
   ],
   "note": ""
  },
  {
   "property": "C100",
   "status": "proved",
   "theorems": [
    "WakeT.Plasma.QS.grouping_irrelevant"
   ],
   "note": ""
  },
  {
   "property": "C101",
   "status": "partial",
   "theorems": [
    "WakeT.Plasma.QS.sources_current_partial",
    "WakeT.Plasma.QS.stale_sources_violated"
   ],
   "note": "Particles outside of the radial extent of the grid keep the sources of the slice in which they left it."
  },
  {
   "property": "C102",
   "status": "proved",
   "theorems": [
    "WakeT.Interp.sources_exact",
    "WakeT.Interp.sources_node",
    "WakeT.Interp.sources_axis"
   ],
   "note": ""
  },
  {
   "property": "C103",
   "status": "proved",
   "theorems": [
    "WakeT.Tracker.step_lengths"
   ],
   "note": "Times not confused by the single precision cast (StrictMono). The first step of a bunch is not shortened (see C01)."
  },
  {
   "property": "C104",
   "status": "partial",
   "theorems": [
    "WakeT.TransferMatrix.second_order_motion_partial",
    "WakeT.TransferMatrix.second_order_motion_violated",
    "WakeT.TransferMatrix.second_order_resonance_violated"
   ],
   "note": "Proved for the horizontal motion of every magnet off the resonance, the vertical motion on energy or without one of the three fields, and the longitudinal coordinate where J3 and Jf do not enter. False for the rest."
  },
  {
   "property": "C105",
   "status": "partial",
   "theorems": [
    "WakeT.Plasma.QS.at_particles_partial",
    "WakeT.Plasma.cell_exists"
   ],
   "note": "Missing: the longitudinal derivative with a parabolic profile and particles beyond the edge of the column (the code is wrong there, see C59), and particles at equal radii."
  },
  {
   "property": "C106",
   "status": "proved",
   "theorems": [
    "WakeT.Plasma.motion_lorentz",
    "WakeT.Plasma.current_derivative",
    "WakeT.Plasma.jump_current"
   ],
   "note": "Lorentz and ponderomotive force; coefficients of the field equation as current and its derivative."
  },
  {
   "property": "C107",
   "status": "proved",
   "theorems": [
    "WakeT.Plasma.QS.column_effect"
   ],
   "note": "Whole effect of one slice on particles and arrays."
  },
  {
   "property": "C108",
   "status": "proved",
   "theorems": [
    "WakeT.ColdFluid.force_is_gradient",
    "WakeT.ColdFluid.ampere"
   ],
   "note": "Discrete gradients and cumulative sums of the arrays."
  },
  {
   "property": "C109",
   "status": "proved",
   "theorems": [
    "WakeT.Beamline.write_data",
    "WakeT.Beamline.line_continues"
   ],
   "note": "SI data of every particle; continuation across trackings."
  },
  {
   "property": "C110",
   "status": "proved",
   "theorems": [
    "WakeT.Laser.GaussPar.lg_paraxial",
    "WakeT.Laser.GaussPar.flattened_paraxial"
   ],
   "note": "At every radius but r = 0, where the equation in this form is singular."
  },
  {
   "property": "C111",
   "status": "proved",
   "theorems": [
    "WakeT.Laser.GaussPar.lg_power"
   ],
   "note": ""
  },
  {
   "property": "C112",
   "status": "proved",
   "theorems": [
    "WakeT.Laser.GaussPar.flattened_far"
   ],
   "note": ""
  },
  {
   "property": "C113",
   "status": "proved",
   "theorems": [
    "WakeT.CSR.straight_no_csr",
    "WakeT.CSR.apply_csr_defined",
    "WakeT.Element.straight_track"
   ],
   "note": "Tracking to first order; steps that fit (C67)."
  },
  {
   "property": "C114",
   "status": "proved",
   "theorems": [
    "WakeT.CSR.kernel_line",
    "WakeT.CSR.kernel_long",
    "WakeT.CSR.history_path"
   ],
   "note": "leftOut is the arctangent term that the code omits if a^2/R^2 <= 1e-7."
  },
  {
   "property": "C115",
   "status": "proved",
   "theorems": [
    "WakeT.CSR.csr_charge",
    "WakeT.CSR.csr_translation",
    "WakeT.CSR.csr_order"
   ],
   "note": "Exact arithmetic."
  },
  {
   "property": "C116",
   "status": "proved",
   "theorems": [
    "WakeT.CSR.csr_mirror",
    "WakeT.CSR.csr_upstream"
   ],
   "note": "Positions at multiples of the CSR step."
  },
  {
   "property": "C117",
   "status": "proved",
   "theorems": [
    "WakeT.CSR.csr_forward"
   ],
   "note": "The line charge is the smoothed histogram."
  },
  {
   "property": "C118",
   "status": "partial",
   "theorems": [
    "WakeT.Laser.subgrid_shared_node",
    "WakeT.Laser.subgrid_bilinear",
    "WakeT.Laser.subgrid_amplitude",
    "WakeT.Laser.subgrid_in_bounds",
    "WakeT.Laser.subgrid_same_size",
    "WakeT.Laser.subgrid_output",
    "WakeT.Laser.subgrid_chi_partial",
    "WakeT.Laser.subgrid_chi_violated",
    "WakeT.Laser.solver_size"
   ],
   "note": "Everything holds except the bounds of the susceptibility: a non-negative susceptibility can become negative next to the axis (linear extrapolation below the first radial node) for any subgrid at least twice as fine in r. subgrid_chi_partial: bounds hold at all nodes of the subgrid not below the first radial node."
  },
  {
   "property": "C119",
   "status": "proved",
   "theorems": [
    "WakeT.FieldElement.track_distance",
    "WakeT.FieldElement.track_drift",
    "WakeT.FieldElement.track_one_or_many",
    "WakeT.FieldElement.track_steps_mismatch",
    "WakeT.FieldElement.track_even_updates",
    "WakeT.FieldElement.track_returns"
   ],
   "note": "With push_bunches_before_diags (the default), distinct objects and a float32 cast that separates diagnostics times (Elem.Ok)."
  },
  {
   "property": "C120",
   "status": "proved",
   "theorems": [
    "WakeT.FieldElement.track_alone"
   ],
   "note": "each bunch tracked together with others in external fields gives the outputs of tracking it alone"
  },
  {
   "property": "C121",
   "status": "proved",
   "theorems": [
    "WakeT.Stage.stage_turned",
    "WakeT.Stage.stage_invariant",
    "WakeT.FieldElement.track_turned",
    "WakeT.FieldElement.leaves_axisymmetric",
    "WakeT.FieldElement.leaves_quadrupole",
    "WakeT.FieldElement.leaves_grid"
   ],
   "note": "Runs in which a particle lies exactly on the axis, where the gathering divides by zero (C13), are not covered: in the model such a particle feels no wakefield."
  },
  {
   "property": "C122",
   "status": "proved",
   "theorems": [
    "WakeT.Stage.stage_history",
    "WakeT.Stage.History.laser",
    "WakeT.Stage.quasi_works",
    "WakeT.Stage.cold_works",
    "WakeT.Tracker.update_lag"
   ],
   "note": "For stages in which the wakefield can be calculated (shown for both models), with a float32 cast that separates times (Elem.Ok)."
  },
  {
   "property": "C123",
   "status": "proved",
   "theorems": [
    "WakeT.Stage.stage_circular",
    "WakeT.Stage.solve_circular",
    "WakeT.Laser.run_scale",
    "WakeT.FieldElement.track_alike"
   ],
   "note": ""
  },
  {
   "property": "C124",
   "status": "partial",
   "theorems": [
    "WakeT.Laser.absolute_phase_partial",
    "WakeT.Laser.absolute_phase_violated"
   ],
   "note": "Holds without use_phase; violated with use_phase=True (the default)."
  },
  {
   "property": "C125",
   "status": "proved",
   "theorems": [
    "WakeT.Stage.stage_causal",
    "WakeT.Stage.stage_causal_start",
    "WakeT.Stage.quasi_causal",
    "WakeT.Stage.cold_causal"
   ],
   "note": "General theorem for causal wakefields in a stage, and causality of the two models on a grid in terms of the fields felt by particles."
  },
  {
   "property": "C126",
   "status": "proved",
   "theorems": [
    "WakeT.FieldElement.track_slow",
    "WakeT.FieldElement.final_slow"
   ],
   "note": "Slower than light between any two outputs of an element; bound on the motion in the co-moving frame."
  },
  {
   "property": "C127",
   "status": "proved",
   "theorems": [
    "WakeT.CSR.csr_integral",
    "WakeT.CSR.wake_curvature"
   ],
   "note": "Second differences of the smoothed histogram; the integrated kernel is that of C114."
  },
  {
   "property": "C128",
   "status": "proved",
   "theorems": [
    "WakeT.Laser.substeps_split"
   ],
   "note": "All substeps of the first call use the scheme that is not centered, so it is compared with calls on a new pulse."
  },
  {
   "property": "C129",
   "status": "proved",
   "theorems": [
    "WakeT.Stage.felt_node",
    "WakeT.Stage.quasi_nodes",
    "WakeT.Stage.laser_nodes"
   ],
   "note": "The laser without a grid of its own; with one see C118."
  },
  {
   "property": "C130",
   "status": "proved",
   "theorems": [
    "WakeT.Stage.stage_similar",
    "WakeT.FieldElement.track_similar",
    "WakeT.Tracker.scaled_tracking"
   ],
   "note": "hypotheses: laws of the two aptools functions, adaptive steps from _get_optimized_dt, comparison of times in single precision independent of the scale"
  },
  {
   "property": "C131",
   "status": "proved",
   "theorems": [
    "WakeT.Diag.file_felt",
    "WakeT.Diag.file_laser"
   ],
   "note": "written meshes and species compared with the gathering of the fields at the particles"
  },
  {
   "property": "C132",
   "status": "partial",
   "theorems": [
    "WakeT.Diag.units_violated",
    "WakeT.Diag.units_partial"
   ],
   "note": "violated: the mesh a has the dimension of a vector potential but holds the normalised envelope; partial: just E, B and rho have the other dimensions, and a becomes a vector potential after multiplication by m_e c / e"
  },
  {
   "property": "C133",
   "status": "proved",
   "theorems": [
    "WakeT.Stage.stage_split",
    "WakeT.Stage.behind_quasi",
    "WakeT.Stage.behind_cold"
   ],
   "note": "Positions of the cut, outputs and updates that fit exactly (exact arithmetic); bunch steps are given numbers that divide the distance between two outputs. The second stage is tracked with the bunches and the pulse that leave the first one."
  },
  {
   "property": "C134",
   "status": "partial",
   "theorems": [
    "WakeT.Stage.reuse_partial",
    "WakeT.Stage.reuse_violated",
    "WakeT.Stage.reuse_history"
   ],
   "note": "reuse_violated: a stage of the library with growing density and a laser, tracked twice. reuse_history says exactly what happens for every stage. reuse_partial: equal results in uniform plasma without laser evolution."
  },
  {
   "property": "C135",
   "status": "proved",
   "theorems": [
    "WakeT.FieldElement.track_converges",
    "WakeT.Push.rk4_consistent",
    "WakeT.Push.boris_consistent"
   ],
   "note": "fields that do not depend on the bunches; bunches without z_injection; first order in the time step"
  },
  {
   "property": "C136",
   "status": "proved",
   "theorems": [
    "WakeT.Stage.cold_charge",
    "WakeT.Stage.quasi_charge",
    "WakeT.Stage.beams_agree"
   ],
   "note": "Charge of the bunches in the cold fluid model (cubic shape), field of the charge in the quasistatic model (cubic shape), and agreement of the beam sources of the two models (both shapes)."
  },
  {
   "property": "C137",
   "status": "partial",
   "theorems": [
    "WakeT.ColdFluid.uniform_current_partial",
    "WakeT.ColdFluid.axis_field",
    "WakeT.ColdFluid.axis_field_violated",
    "WakeT.ColdFluid.excess_small",
    "WakeT.Plasma.uniform_beam",
    "WakeT.Stage.cold_beam_part"
   ],
   "note": "Violated in the cold fluid model: at the node next to the axis the field is twice that of the current for every cell size, because the integral up to the first node takes half of the first cell instead of a quarter. At the other nodes the excess is the factor 1 + (dr/2r)^2 <= 10/9, which goes to 1 at fixed radius."
  },
  {
   "property": "C138",
   "status": "proved",
   "theorems": [
    "WakeT.Diag.list_items",
    "WakeT.Diag.list_fails",
    "WakeT.Diag.analyze_values",
    "WakeT.Diag.exchange_planes"
   ],
   "note": "The statistics of aptools are parameters; the weighted means are computed in the code and modelled."
  },
  {
   "property": "C139",
   "status": "partial",
   "theorems": [
    "WakeT.Diag.read_saved_partial",
    "WakeT.Diag.read_saved_violated",
    "WakeT.Diag.keys_nodup"
   ],
   "note": "Violated with h5py 3.0 and later: reading uses the attribute value of data sets, which was removed. Proved for earlier versions."
  },
  {
   "property": "C140",
   "status": "partial",
   "theorems": [
    "WakeT.Tracker.dt_none_violated",
    "WakeT.Tracker.auto_ends_partial",
    "WakeT.Tracker.nstep_lift"
   ],
   "note": "Violated: None is stored as nan, which np.argmin always selects and which is never beyond the end, so the loop never ends. Partial: numbers and auto."
  },
  {
   "property": "C141",
   "status": "partial",
   "theorems": [
    "WakeT.Stage.stage_accepts",
    "WakeT.Stage.stage_fields",
    "WakeT.Stage.number_is_function",
    "WakeT.Stage.auto_of_function",
    "WakeT.Stage.ramp_defined",
    "WakeT.Stage.ramp_density",
    "WakeT.Stage.documented_violated"
   ],
   "note": "Violated for several documented arguments (documented_violated); the other theorems say exactly what is accepted. The classes of the wakefield models are parameters."
  },
  {
   "property": "C142",
   "status": "proved",
   "theorems": [
    "WakeT.Stage.lens_no_plasma",
    "WakeT.Stage.lens_is_stage"
   ],
   "note": "A density of a type that stages do not accept raises even without wakefields."
  },
  {
   "property": "C143",
   "status": "proved",
   "theorems": [
    "WakeT.FieldElement.boris_second_order",
    "WakeT.Push.boris_order"
   ],
   "note": "globally given C^2 fields that do not depend on the bunches; bunches without z_injection"
  },
  {
   "property": "C144",
   "status": "proved",
   "theorems": [
    "WakeT.FieldElement.rk4_fourth_order",
    "WakeT.Push.rk4_order"
   ],
   "note": "globally given C^4 fields that do not depend on the bunches; bunches without z_injection"
  },
  {
   "property": "C145",
   "status": "proved",
   "theorems": [
    "WakeT.FieldElement.track_limit",
    "WakeT.FieldElement.pushers_agree",
    "WakeT.Push.trajectory_exists",
    "WakeT.Push.trajectory_unique"
   ],
   "note": "globally given C^1 fields that do not depend on the bunches; bunches without z_injection"
  },
  {
   "property": "C146",
   "status": "proved",
   "theorems": [
    "WakeT.Stage.stage_causal_laser",
    "WakeT.Stage.quasi_causal_env",
    "WakeT.Stage.quasi_causal_chi",
    "WakeT.Stage.cold_causal_env",
    "WakeT.Stage.cold_causal_chi",
    "WakeT.Laser.evolve_ahead",
    "WakeT.Laser.pulse_ahead"
   ],
   "note": "The general theorem is for any causal wakefield; both models are shown to be causal, the quasistatic one with the linear shape."
  },
  {
   "property": "C147",
   "status": "proved",
   "theorems": [
    "WakeT.ColdFluid.fluid_order"
   ],
   "note": "The exact wake is a parameter described by its differential equation; its existence on the whole box is assumed (a wake may break), the constants are not computed."
  },
  {
   "property": "C148",
   "status": "partial",
   "theorems": [
    "WakeT.Plasma.QS.head_quiet_partial",
    "WakeT.Plasma.QS.head_quiet_violated"
   ],
   "note": "The field in front of the drivers is not zero (head_quiet_violated); proved is the bound 3/2 dr/ppc E_0 at every node of the first slice, for every driver and resolution."
  },
  {
   "property": "C149",
   "status": "proved",
   "theorems": [
    "WakeT.Element.magnet_energy"
   ],
   "note": "All transfer-map elements without CSR, first and second order."
  },
  {
   "property": "C150",
   "status": "proved",
   "theorems": [
    "WakeT.Element.emittance_kept"
   ],
   "note": "Square of the normalised rms emittance, weighted; bend plane in the frame of the reference orbit."
  },
  {
   "property": "C151",
   "status": "proved",
   "theorems": [
    "WakeT.FieldElement.magnets_energy",
    "WakeT.FieldElement.lens_energy"
   ],
   "note": "Boris pusher, exact arithmetic; all outputs of a whole tracking."
  },
  {
   "property": "C152",
   "status": "proved",
   "theorems": [
    "WakeT.FieldElement.angular_momentum",
    "WakeT.Stage.stage_angular_momentum"
   ],
   "note": "Boris pusher, exact arithmetic; all outputs of a whole tracking."
  },
  {
   "property": "C153",
   "status": "proved",
   "theorems": [
    "WakeT.Interp.gather_accuracy",
    "WakeT.Interp.sources_accuracy",
    "WakeT.Interp.regrid_accuracy"
   ],
   "note": "Smoothness is stated as two derivatives along each axis with bounded second derivatives; the field may be vector or complex valued for regridding."
  },
  {
   "property": "C154",
   "status": "proved",
   "theorems": [
    "WakeT.Push.borisStep_liouville",
    "WakeT.FieldElement.boris_liouville"
   ],
   "note": "One step, and the tracking through an element with given fields, one fixed step per bunch and the Boris pusher. Fields that react to the bunches and adaptive steps are not covered (the map then depends on the bunches)."
  },
  {
   "property": "C155",
   "status": "partial",
   "theorems": [
    "WakeT.BunchGen.matched_partial",
    "WakeT.BunchGen.matched_violated",
    "WakeT.BunchGen.getMatched_iff"
   ],
   "note": "Holds for electrons if aptools returns their matched beta function. Violated for other species: charge and mass of the species do not enter the calculation of the beta function (bunch_generation.py 245), for any external function."
  },
  {
   "property": "C156",
   "status": "proved",
   "theorems": [
    "WakeT.FieldElement.track_reordered",
    "WakeT.FieldElement.track_regrouped",
    "WakeT.Stage.stage_reordered",
    "WakeT.Stage.stage_regrouped",
    "WakeT.Stage.quasi_collective",
    "WakeT.Stage.cold_collective"
   ],
   "note": "Exact arithmetic. Regrouping needs fixed time steps (adaptive ones depend on all particles of a bunch) and bunches without an injection position."
  },
  {
   "property": "C157",
   "status": "proved",
   "theorems": [
    "WakeT.FieldElement.track_outputs"
   ],
   "note": "Two runs of the same element with different numbers of outputs (and with or without files), both returning. The state in an output at time T is shown to be the state after all pushes and updates with (rounded) time up to T."
  },
  {
   "property": "C158",
   "status": "proved",
   "theorems": [
    "WakeT.Beamline.line_mirrorX",
    "WakeT.Beamline.line_mirrorY"
   ],
   "note": "Whole beamlines, all outputs, with CSR and second order. Histograms with at least one bin."
  },
  {
   "property": "C159",
   "status": "proved",
   "theorems": [
    "WakeT.Beamline.line_moved"
   ],
   "note": "Whole beamlines, all outputs, with CSR and second order."
  },
  {
   "property": "C160",
   "status": "proved",
   "theorems": [
    "WakeT.Element.drift_turned",
    "WakeT.Element.quadrupole_turned",
    "WakeT.Element.sextupole_turned"
   ],
   "note": "CSR off, elements without bending angle, reference orbit along the axis."
  },
  {
   "property": "C161",
   "status": "partial",
   "theorems": [
    "WakeT.TransferMatrix.first_order_continuous",
    "WakeT.TransferMatrix.second_order_continuous_partial",
    "WakeT.TransferMatrix.second_order_continuous_violated"
   ],
   "note": "First order: jointly continuous in everything. Second order: proved for straight elements, for bends without gradients and for the transverse coordinates in bends with quadrupole gradient. False for bends with sextupole gradient: the formula for J3 (line 140) has an excess that diverges like 1/theta."
  },
  {
   "property": "C162",
   "status": "partial",
   "theorems": [
    "WakeT.Laser.superposition_partial",
    "WakeT.Laser.superposition_violated"
   ],
   "note": "Proved for use_phase=False. With use_phase=True (the default) the coefficients of the scheme depend on the phase of the pulse on axis, and superposition fails on a 2 x 3 grid in vacuum after one step."
  },
  {
   "property": "C163",
   "status": "proved",
   "theorems": [
    "WakeT.Element.drift_agrees"
   ],
   "note": "For particles with small slopes and energy deviations (stated bounds), bunch on the reference axis. The slippage L (1 - v/c) of the reference particle with respect to light is left out by the drift; this is part of the statement."
  },
  {
   "property": "C164",
   "status": "partial",
   "theorems": [
    "WakeT.Laser.scheme_consistent",
    "WakeT.Laser.first_step_consistent",
    "WakeT.Laser.step_error_partial"
   ],
   "note": "scheme_consistent and first_step_consistent are statements on the equations of the solver; step_error_partial connects them with the solver itself. Missing: the outermost radial point, where the tridiagonal solver is wrong (C48), and hence a bound of the error itself."
  },
  {
   "property": "C165",
   "status": "proved",
   "theorems": [
    "WakeT.ColdFluid.energy_behind"
   ],
   "note": "Exact arithmetic; the exact wake is the solution of the one-dimensional wave equation of the model (C147). Existence of one for every weak driver is weak_wake of C166."
  },
  {
   "property": "C166",
   "status": "proved",
   "theorems": [
    "WakeT.ColdFluid.weak_driver",
    "WakeT.ColdFluid.weak_superpose",
    "WakeT.ColdFluid.weak_wake"
   ],
   "note": "Exact arithmetic. The wake is in the normalized units of the model."
  },
  {
   "property": "C167",
   "status": "partial",
   "theorems": [
    "WakeT.Stage.options_checked_partial",
    "WakeT.Stage.options_ignored_violated"
   ],
   "note": "Violated for the type of a ramp, the polarization of a pulse, the type of a phase space matrix, and for the shape of the particles in a quasistatic wakefield without bunches.  Proved for ramp profiles, wakefield models, bunch and plasma pushers, and for shapes when there are bunches."
  },
  {
   "property": "C168",
   "status": "proved",
   "theorems": [
    "WakeT.Element.quad_agrees"
   ],
   "note": "Exact paths in the field and the transfer map are compared with Gr\u00f6nwall; the pushers by C143 and C144. The gradient is given by the species of the bunch (foc = -k1 gamma m c / q), for electrons the one that is printed."
  },
  {
   "property": "C169",
   "status": "proved",
   "theorems": [
    "WakeT.Stage.lens_betatron",
    "WakeT.Stage.channel_betatron"
   ],
   "note": "For a single bunch without ballistic injection; particles with gamma^2 - 1 >= 4 flying forward."
  },
  {
   "property": "C170",
   "status": "proved",
   "theorems": [
    "WakeT.Stage.gain_bounds",
    "WakeT.Stage.axis_gain",
    "WakeT.Stage.blowout_gain"
   ],
   "note": "For bunches without ballistic injection."
  },
  {
   "property": "C171",
   "status": "proved",
   "theorems": [
    "WakeT.Deposition.density_nonneg",
    "WakeT.Deposition.density_le_weight",
    "WakeT.Deposition.beam_field_nonneg",
    "WakeT.Deposition.beam_enclosed_mono",
    "WakeT.Deposition.beam_enclosed_le"
   ],
   "note": "Exact arithmetic over the reals; linear and cubic shapes, with and without correction."
  },
  {
   "property": "C172",
   "status": "proved",
   "theorems": [
    "WakeT.Stage.boris_work",
    "WakeT.Stage.energy_bound"
   ],
   "note": "Boris pusher only; exact arithmetic over the reals."
  },
  {
   "property": "C173",
   "status": "proved",
   "theorems": [
    "WakeT.Stage.outside_drifts",
    "WakeT.Stage.stage_lost"
   ],
   "note": "Exact arithmetic over the reals. The gathering divides by the radius of the particle before it looks at the box; a particle exactly on the axis (C13) is excluded from the model of the stage."
  },
  {
   "property": "C174",
   "status": "proved",
   "theorems": [
    "WakeT.Stage.channel_rings",
    "WakeT.Stage.channel_enclosed",
    "WakeT.Stage.channel_argument"
   ],
   "note": "Exact error terms of the ring charges; exact arithmetic. The kinds of arguments are those of the density argument of a stage."
  },
  {
   "property": "C175",
   "status": "proved",
   "theorems": [
    "WakeT.Laser.file_pulse",
    "WakeT.Laser.file_moved",
    "WakeT.Laser.file_smooth"
   ],
   "note": "The packages lasy and scipy are parameters; file_pulse assumes that lasy samples the profile at equally spaced points including the limits (Lasy.Samples)."
  },
  {
   "property": "C176",
   "status": "partial",
   "theorems": [
    "WakeT.Laser.scheme_stable",
    "WakeT.Laser.laser_energy_partial",
    "WakeT.Laser.amplitude_le",
    "WakeT.Laser.laser_unstable_violated"
   ],
   "note": "The discretised equation is stable for any step (scheme_stable) and its energy bounds the amplitude (amplitude_le). What the code computes satisfies the same estimate up to a term at the two outermost radial points (laser_energy_partial), which stems from the last row of the tridiagonal solver (C48); on a coarse grid it makes the envelope grow without limit (laser_unstable_violated)."
  },
  {
   "property": "C177",
   "status": "proved",
   "theorems": [
    "WakeT.Stage.stage_macroparticles",
    "WakeT.Stage.quasi_kinetic",
    "WakeT.Stage.cold_kinetic",
    "WakeT.Stage.SplitOf.charge",
    "WakeT.Stage.SplitOf.stageDt"
   ],
   "note": "Exact arithmetic; bunches without an injection position."
  },
  {
   "property": "C178",
   "status": "partial",
   "theorems": [
    "WakeT.Laser.laser_error",
    "WakeT.Laser.laser_converges_partial"
   ],
   "note": "laser_error compares the computed levels with any fields, with use of the phase or without. laser_converges_partial applies it to a smooth solution, without use of the phase. Missing: a bound of the computed values at the two outermost radial points, which are assumed to be small (they can grow, C176), and the convergence with use of the phase."
  },
  {
   "property": "C179",
   "status": "proved",
   "theorems": [
    "WakeT.Plasma.QS.ponderomotive",
    "WakeT.Interp.cellInterp_close"
   ],
   "note": "Exact arithmetic. That the error in the outermost cell really is of first order follows from C72 (radial_exact)."
  },
  {
   "property": "C180",
   "status": "proved",
   "theorems": [
    "WakeT.Stage.stage_moved"
   ],
   "note": "Holds for plasma stages with the quasistatic_2d and cold_fluid_1d models, with the adaptive time step of the code, in exact arithmetic."
  },
  {
   "property": "C181",
   "status": "proved",
   "theorems": [
    "WakeT.Plasma.QS.cavity_force",
    "WakeT.Plasma.QS.cavity_acceleration"
   ],
   "note": "Complete slice loop, finite differences and gather; the instance has any laser and any bunches. Particles exactly on the axis are excluded (the code divides by the radius there, see the model of the gather)."
  },
  {
   "property": "C182",
   "status": "proved",
   "theorems": [
    "WakeT.Stage.stage_ratio",
    "WakeT.FieldElement.track_lighter"
   ],
   "note": "quadDt_lighter shows that the automatic steps of quadrupoles and lenses fulfil the hypothesis of track_lighter. Wakefields are assumed to be kinetic, which quasi_kinetic and cold_kinetic (C177) prove for both models."
  },
  {
   "property": "C183",
   "status": "partial",
   "theorems": [
    "WakeT.Deposition.density_continuous_partial",
    "WakeT.Deposition.density_jumps_violated"
   ],
   "note": "Cubic shape in full; the linear shape only on grids with more longitudinal than radial cells. On other grids it is violated: the density jumps by half of the charge when a particle crosses a radius (deposition.py 120 tests r_cell instead of z_cell). Particles entering or leaving the grid are excluded."
  },
  {
   "property": "C184",
   "status": "proved",
   "theorems": [
    "WakeT.Interp.gathered_continuous",
    "WakeT.Interp.gathered_scalar_continuous",
    "WakeT.Interp.gathered_sources_continuous"
   ],
   "note": "Positions inside the grid; on the axis itself gather_main_fields_cyl_linear raises ZeroDivisionError (see the property on the axis), so the statement there is about the continuous extension."
  },
  {
   "property": "C185",
   "status": "proved",
   "theorems": [
    "WakeT.FieldElement.smooth_dependence",
    "WakeT.FieldElement.boris_diffeo",
    "WakeT.Push.smooth_lib",
    "WakeT.Push.smoothFields_of"
   ],
   "note": "Fixed step, the same for all bunches; fields that do not depend on the bunches. smooth_lib shows the assumption for the fields of the library."
  },
  {
   "property": "C186",
   "status": "proved",
   "theorems": [
    "WakeT.FieldElement.lens_amplitude"
   ],
   "note": "Fixed step, Boris pusher, no wakefields."
  },
  {
   "property": "C187",
   "status": "proved",
   "theorems": [
    "WakeT.FieldElement.track_perturbed",
    "WakeT.Push.rk4_perturbed",
    "WakeT.Push.boris_perturbed"
   ],
   "note": "The exact trajectory and the bound of the field errors are hypotheses; no ballistic injection."
  },
  {
   "property": "C188",
   "status": "partial",
   "theorems": [
    "WakeT.Plasma.RadiiArgs.radii_partial",
    "WakeT.Plasma.RadiiArgs.sheets_deriv",
    "WakeT.Plasma.RadiiArgs.radii_violated"
   ],
   "note": "Proved if the particle stored last is the outermost one; wrong otherwise (witness), since r[-1] is taken for the outer radius."
  },
  {
   "property": "C189",
   "status": "proved",
   "theorems": [
    "WakeT.FieldElement.track_gyrates",
    "WakeT.FieldElement.track_circle"
   ],
   "note": "Bunches without ballistic injection."
  },
  {
   "property": "C190",
   "status": "proved",
   "theorems": [
    "WakeT.Plasma.QS.chi_rho",
    "WakeT.Plasma.QS.chi_rho_args"
   ],
   "note": "A particle exactly on the axis is deposited with weight 0 in the model (division by zero in the code). On a laser subgrid the interpolated susceptibility can become negative, see C118."
  },
  {
   "property": "C191",
   "status": "partial",
   "theorems": [
    "WakeT.ColdFluid.density_half",
    "WakeT.ColdFluid.density_order_partial",
    "WakeT.ColdFluid.chi_negative_violated"
   ],
   "note": "The susceptibility can be negative if the slices are too long for the driver (a beam of positive charge with 300 times the plasma density on slices of a tenth of the skin depth). For short enough slices the claim is proved."
  },
  {
   "property": "C192",
   "status": "partial",
   "theorems": [
    "WakeT.Plasma.rk4_order",
    "WakeT.Plasma.ab5_order_partial",
    "WakeT.Plasma.ab5_start_violated"
   ],
   "note": "Runge-Kutta in full. Adams-Bashforth under the hypothesis that the plasma is at rest over some distance behind the head of the window; without it the claim is false, as the history of derivatives begins with zeros (error of half a step in the momentum, ab5_start_violated)."
  },
  {
   "property": "C193",
   "status": "proved",
   "theorems": [
    "WakeT.Plasma.QS.calculateField_mem",
    "WakeT.Plasma.QS.evolve_mem",
    "WakeT.Plasma.QS.allocate_distinct"
   ],
   "note": "Arrays of one dimension over the particles; the grids are values as in the functional model. Temporaries of numpy expressions have arrays of their own."
  },
  {
   "property": "C194",
   "status": "partial",
   "theorems": [
    "WakeT.Push.calls_separate_partial",
    "WakeT.Push.call_separate",
    "WakeT.Push.new_separate",
    "WakeT.Push.shared_violated",
    "WakeT.Push.same_array_violated"
   ],
   "note": "Proved for bunches whose arrays are different ones to begin with. The constructor keeps the arrays it is given: two bunches made from the same arrays move together (shared_violated), and a bunch made with one array for two coordinates is pushed wrongly (same_array_violated)."
  },
  {
   "property": "C195",
   "status": "proved",
   "theorems": [
    "WakeT.Deposition.Rounded.rounded_charge_error",
    "WakeT.Deposition.Rounded.rounded_charge_conserved",
    "WakeT.Deposition.Rounded.rounded_writes_in_bounds",
    "WakeT.Deposition.Rounded.exactCoef_small",
    "WakeT.Deposition.Rounded.exact_writes"
   ],
   "note": "Rounding is any function with a bounded relative error (no overflow or underflow). The correction coefficients are a parameter bounded by one; exactCoef_small shows it for the exact coefficients, C200 for those computed with rounding. exact_writes: without rounding this is the model of C14."
  },
  {
   "property": "C196",
   "status": "proved",
   "theorems": [
    "WakeT.Interp.Rounded.gatherMain_rounded",
    "WakeT.Interp.Rounded.gatherSources_rounded",
    "WakeT.Interp.Rounded.gatherField_rounded",
    "WakeT.Interp.Rounded.gather_rounded_in_bounds",
    "WakeT.Interp.Rounded.cellInterp_rounded",
    "WakeT.Interp.Rounded.cellInterp_id"
   ],
   "note": "Rounding is any function with a bounded relative error (no overflow or underflow). Reference is the exact model of the same functions (cellInterp_id: without rounding the two are the same)."
  },
  {
   "property": "C197",
   "status": "proved",
   "theorems": [
    "WakeT.Push.Rounded.magnetic_energy_rounded",
    "WakeT.Push.Rounded.magnetic_steps",
    "WakeT.Push.Rounded.magnetic_step",
    "WakeT.Push.Rounded.exact_boris",
    "WakeT.Push.Rounded.exact_pushMomentum",
    "WakeT.Push.Rounded.exact_halfPush"
   ],
   "note": "Relative rounding errors only: overflow and underflow are not modelled."
  },
  {
   "property": "C198",
   "status": "proved",
   "theorems": [
    "WakeT.Push.Rounded.push_rounded",
    "WakeT.Push.Rounded.halfPush_rounded"
   ],
   "note": "Relative rounding errors only: overflow and underflow are not modelled."
  },
  {
   "property": "C199",
   "status": "proved",
   "theorems": [
    "WakeT.Push.Rounded.push_accurate",
    "WakeT.Push.Rounded.track_accurate"
   ],
   "note": "Relative rounding errors only: overflow and underflow are not modelled, and q/(m c) is taken as exact. The fields at a given position and time are taken as exact too; C196 bounds the rounding of the gathering from grids."
  },
  {
   "property": "C200",
   "status": "proved",
   "theorems": [
    "WakeT.Deposition.Rounded.coefs_near",
    "WakeT.Deposition.Rounded.roundedCoef_small",
    "WakeT.Deposition.Rounded.rounded_charge_error_coef",
    "WakeT.Deposition.Rounded.exact_coefs"
   ],
   "note": "Relative rounding errors only: overflow and underflow are not modelled. np.pi is any positive number."
  },
  {
   "property": "C201",
   "status": "proved",
   "theorems": [
    "WakeT.Plasma.Rounded.rounded_weight_error",
    "WakeT.Plasma.Rounded.rounded_writes_in_bounds",
    "WakeT.Plasma.Rounded.rounded_rows",
    "WakeT.Plasma.Rounded.exact_deposit"
   ],
   "note": "Rounding is any function with relative error at most \u03b5; the index of the slice is exact. exact_deposit: without rounding the model is the exact model of the deposition."
  },
  {
   "property": "C202",
   "status": "partial",
   "theorems": [
    "WakeT.Tracker.Rounded.snapshots_rounded",
    "WakeT.Tracker.Rounded.snapshot_count_partial",
    "WakeT.Tracker.Rounded.snapshots_violated",
    "WakeT.Tracker.Rounded.short_tFinal",
    "WakeT.Tracker.Rounded.exact_tracking"
   ],
   "note": "Violated by the code: for a stage of 0.5453198569255445 mm and ten outputs the clock of the outputs ends above the final time by a rounding error, the casts to single precision separate the two, and the snapshot at the end of the stage is missing (snapshots_violated, with IEEE rounding to 53 and 24 bits). snapshot_count_partial: at most this one snapshot is missing, and the times of the others. The statements are about runs that return; when they do is C06. For almost all final times none is missing (C205)."
  },
  {
   "property": "C203",
   "status": "proved",
   "theorems": [
    "WakeT.Double.bunch_charge",
    "WakeT.Double.plasma_weight",
    "WakeT.Double.magnetic_energy",
    "WakeT.Double.snapshots",
    "WakeT.Double.rational_ieee",
    "WakeT.Base.ieee_rounds",
    "WakeT.Base.ieee_digits",
    "WakeT.Base.ieee_exact",
    "WakeT.Base.ieee_mono"
   ],
   "note": "IEEE 754 rounding to nearest, ties to even, without limits on the exponent (ieee_rounds, ieee_digits, ieee_exact, ieee_mono characterise it); overflow and underflow are not modelled. rational_ieee: the rounding used in the computed counterexample of C202 is the same."
  },
  {
   "property": "C204",
   "status": "proved",
   "theorems": [
    "WakeT.Tracker.Rounded.schedule_rounded",
    "WakeT.Tracker.Rounded.particle_rounded",
    "WakeT.Tracker.Rounded.tracked_accurate",
    "WakeT.Tracker.Rounded.rolls_clock",
    "WakeT.Tracker.Rounded.exact_tracking"
   ],
   "note": "About runs that return (when they do is C06). tracked_accurate is for bunches of one particle in external fields and assumes that no push of the log has a negative duration; the exact trajectory is compared at the sum of the durations of the pushes."
  },
  {
   "property": "C205",
   "status": "proved",
   "theorems": [
    "WakeT.Tracker.Rounded.complete_double",
    "WakeT.Tracker.Rounded.complete_typical",
    "WakeT.Tracker.Rounded.ends_double",
    "WakeT.Tracker.Rounded.ends_rounded"
   ],
   "note": "Double precision without overflow and subnormal numbers (Base/Ieee.lean). ends_rounded: for general rounding and casts. For other final times see never_ends_violated (C06) and snapshots_violated (C202)."
  },
  {
   "property": "C206",
   "status": "proved",
   "theorems": [
    "WakeT.Tracker.Rounded.arrives_typical"
   ],
   "note": "Double precision without overflow and subnormal numbers (Base/Ieee.lean). Without the push before the outputs a bunch with a step longer than the stage is never pushed (C01)."
  }
 ]
}
