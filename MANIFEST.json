{
 "claims": [
  {
   "property": "C01",
   "status": "proved",
   "theorems": [
    "Pylbm.Velocity.C01_velocity1d_bijective"
   ],
   "note": "All integers, both directions (number of a velocity, velocity of a number)."
  },
  {
   "property": "C02",
   "status": "proved",
   "theorems": [
    "Pylbm.Velocity.C02_velocity2d_bijective"
   ],
   "note": "All pairs of integers, both directions."
  },
  {
   "property": "C03",
   "status": "proved",
   "theorems": [
    "Pylbm.Velocity.C03_velocity3d_bijective",
    "Pylbm.Velocity.C03_velocity_number_roundtrip"
   ],
   "note": "All triples in the range enumerated by the code; both directions and the common round-trip for the three dimensions."
  },
  {
   "property": "C04",
   "status": "proved",
   "theorems": [
    "Pylbm.Velocity.C04_permute_in_place",
    "Pylbm.Velocity.C04_permute_first_sorted",
    "Pylbm.Velocity.C04_permute_terminates"
   ],
   "note": "Any list over a linear order: every rearrangement exactly once, in increasing order, starting from the sorted one; the generator terminates."
  },
  {
   "property": "C05",
   "status": "proved",
   "theorems": [
    "Pylbm.Velocity.C05_symmetric_components",
    "Pylbm.Velocity.C05_symmetric_error_iff",
    "Pylbm.Velocity.C05_symmetric_involutive",
    "Pylbm.Velocity.C05_symmetric_number"
   ],
   "note": "All velocities and axes: components, involution, errors, number of the symmetric."
  },
  {
   "property": "C06",
   "status": "proved",
   "theorems": [
    "Pylbm.Sten.C06_build_succeeds_iff",
    "Pylbm.Sten.C06_tables_coherent",
    "Pylbm.Sten.C06_all_velocities"
   ],
   "note": "All lists of lists of numbers; the constructor succeeds exactly on accepted inputs and all the tables are coherent."
  },
  {
   "property": "C07",
   "status": "proved",
   "theorems": [
    "Pylbm.Boundary.C07_boundary_tables",
    "Pylbm.Sten.C07_symmetric_index",
    "Pylbm.Sten.C07_symmetric_index_involutive",
    "Pylbm.Sten.C07_symmetric_index_missing"
   ],
   "note": "All stencils, all axes; involution when no scheme repeats a velocity; error when a symmetric velocity is missing."
  },
  {
   "property": "C08",
   "status": "partial",
   "theorems": [
    "Pylbm.Sten.C08_is_symmetric_last_scheme",
    "Pylbm.Sten.C08_is_symmetric_negation",
    "Pylbm.Sten.C08_is_symmetric_partial",
    "Pylbm.Sten.C08_is_symmetric_complete_partial"
   ],
   "note": "False in the code for several schemes (witness); exact for one scheme, and never a wrong negative answer."
  },
  {
   "property": "C09",
   "status": "partial",
   "theorems": [
    "Pylbm.Sten.C09_halo_width_negation",
    "Pylbm.Sten.C09_halo_width_partial",
    "Pylbm.Sten.C09_halo_width_attained",
    "Pylbm.Sten.C09_extremes"
   ],
   "note": "False in the code for one-sided stencils (witness); proved for stencils with symmetric schemes; the width is attained."
  },
  {
   "property": "C10",
   "status": "proved",
   "theorems": [
    "Pylbm.Mpi.C10_region_indices_partition"
   ],
   "note": "All n and p >= 1."
  },
  {
   "property": "C11",
   "status": "proved",
   "theorems": [
    "Pylbm.Mpi.C11_owner_unique"
   ],
   "note": "All dimensions, process grids and sizes; exactly one rank."
  },
  {
   "property": "C12",
   "status": "proved",
   "theorems": [
    "Pylbm.Mpi.C12_directions",
    "Pylbm.Mpi.C12_directions_error"
   ],
   "note": "The three dimensions (complete finite tables), all vectors; error in the others."
  },
  {
   "property": "C13",
   "status": "proved",
   "theorems": [
    "Pylbm.Storage.C13_storage_order",
    "Pylbm.Storage.C13_read_write",
    "Pylbm.Storage.C13_memory_size"
   ],
   "note": "All dimensions, shapes and orders: offsets in bounds, injective, same cell for generated code and Python view, read-after-write."
  },
  {
   "property": "C14",
   "status": "partial",
   "theorems": [
    "Pylbm.Storage.C14_loops_exact_partial",
    "Pylbm.Storage.C14_loops_correct_iff",
    "Pylbm.Storage.C14_inner_loops_partial",
    "Pylbm.Storage.C14_loops_negation"
   ],
   "note": "False in the code for orders which permute the space axes (witness); proved for all the orders keeping them increasing, and shown to be exactly these orders."
  },
  {
   "property": "C15",
   "status": "proved",
   "theorems": [
    "Pylbm.Halo.C15_halo_update_periodic",
    "Pylbm.Halo.C15_global_array_exists"
   ],
   "note": "Stated for every complete execution of the asynchronous model, any process grid (1D to 3D), any sizes with local size >= halo width."
  },
  {
   "property": "C16",
   "status": "proved",
   "theorems": [
    "Pylbm.Halo.C16_schedule_independent",
    "Pylbm.Halo.C16_no_deadlock",
    "Pylbm.Halo.C16_terminates",
    "Pylbm.Halo.C16_completes"
   ],
   "note": "All interleavings and all buffering choices of the sends: same result, no deadlock, bounded length, completion."
  },
  {
   "property": "C17",
   "status": "partial",
   "theorems": [
    "Pylbm.Storage.C17_interior_partial",
    "Pylbm.Storage.C17_interior_negation",
    "Pylbm.Storage.C17_interior_empty"
   ],
   "note": "False in the code for a halo of width 0 (witness); proved for positive widths in any dimension."
  },
  {
   "property": "C18",
   "status": "partial",
   "theorems": [
    "Pylbm.Domain.C18_halo_coordinates",
    "Pylbm.Domain.C18_decomposition_independent",
    "Pylbm.Domain.C18_interior_coordinates_partial",
    "Pylbm.Domain.C18_interior_coordinates_negation",
    "Pylbm.Domain.C18_equally_spaced"
   ],
   "note": "Halo coordinates and the independence of the decomposition are proved in full; the interior view holds for halo width > 0 and is refuted for width 0 (coords[0:0]-like slice leaves one coordinate or none)."
  },
  {
   "property": "C19",
   "status": "partial",
   "theorems": [
    "Pylbm.Domain.C19_accepts_multiples",
    "Pylbm.Domain.C19_accepted_error_partial",
    "Pylbm.Domain.C19_negation",
    "Pylbm.Domain.C19_coarse_negation",
    "Pylbm.Domain.C19_empty_negation",
    "Pylbm.Domain.C19_reversed_negation"
   ],
   "note": "The code compares the rounding error with the absolute number dx (not relative to it): proved what is accepted, and refuted that acceptance means a multiple of dx. Very short boxes are accepted with no point, and boxes with exchanged bounds with a negative number of points (two universal negations)."
  },
  {
   "property": "C20",
   "status": "proved",
   "theorems": [
    "Pylbm.Domain.C20_box_links",
    "Pylbm.Domain.C20_box_succeeds"
   ],
   "note": "All links of the box faces: distance, label and normal."
  },
  {
   "property": "C21",
   "status": "partial",
   "theorems": [
    "Pylbm.Domain.C21_windows",
    "Pylbm.Domain.C21_near_partial",
    "Pylbm.Domain.C21_cylinder_partial",
    "Pylbm.Domain.C21_plane",
    "Pylbm.Domain.C21_fluid_map",
    "Pylbm.Domain.C21_space"
   ],
   "note": "For abstract sound elements; C21_plane for every 2D shape of the library (parallelogram, triangle, ellipse, circle) and C21_space for spheres, ellipsoids and round cylinders inside their bounds, over the reals. Any elements, whatever their bounds: C21_windows (each element is cut by its window, exactly), C21_near_partial and C21_cylinder_partial (parallelepipeds and triangular cylinders which are not high). False for high parallelepipeds, which are never inside their bounds (C29_domain_negation)."
  },
  {
   "property": "C22",
   "status": "proved",
   "theorems": [
    "Pylbm.Domain.C22_clean"
   ],
   "note": "After clean, non fluid cells carry no link data."
  },
  {
   "property": "C23",
   "status": "proved",
   "theorems": [
    "Pylbm.Domain.C23_flagged_links"
   ],
   "note": "Every finite link datum of a fluid cell is a real crossing of the box face or of an element border."
  },
  {
   "property": "C24",
   "status": "proved",
   "theorems": [
    "Pylbm.Geometry.C24_cylinder_first",
    "Pylbm.Geometry.C24_cylinder_enter",
    "Pylbm.Geometry.C24_cylinder_leave",
    "Pylbm.Geometry.C24_cylinder_disc_enter",
    "Pylbm.Geometry.C24_parallelepiped_enter",
    "Pylbm.Geometry.C24_parallelogram_enter",
    "Pylbm.Geometry.C24_parallelogram_leave",
    "Pylbm.Geometry.C24_triangle_enter",
    "Pylbm.Geometry.C24_triangle_leave",
    "Pylbm.Geometry.C24_ellipse_links",
    "Pylbm.Geometry.C24_ellipse_enter",
    "Pylbm.Geometry.C24_circle_links",
    "Pylbm.Geometry.C24_circle_enter",
    "Pylbm.Geometry.C24_ellipsoid_links",
    "Pylbm.Geometry.C24_ellipsoid_enter",
    "Pylbm.Geometry.C24_sphere_links",
    "Pylbm.Geometry.C24_sphere_enter"
   ],
   "note": "Entering and leaving links for every element of the library (2D, 3D, cylinders), the leaving ones from a point which is not on the boundary (the on-boundary case is a witness under C59). For a cylinder and a link parallel to the base the hit of a leaving link is in the cylinder, on its surface up to 1e-16 (decal)."
  },
  {
   "property": "C25",
   "status": "proved",
   "theorems": [
    "Pylbm.Geometry.C25_intersection"
   ],
   "note": "Exact over any ordered field: no point reported exactly for parallel lines, and otherwise the unique pair of parameters."
  },
  {
   "property": "C26",
   "status": "proved",
   "theorems": [
    "Pylbm.Geometry.C26_first_edge",
    "Pylbm.Geometry.C26_normal",
    "Pylbm.Geometry.C26_parallelogram_distance",
    "Pylbm.Geometry.C26_triangle_distance"
   ],
   "note": "First edge in list order among those hit first; distance to the sides of triangles and parallelograms; normals over the reals."
  },
  {
   "property": "C27",
   "status": "partial",
   "theorems": [
    "Pylbm.Geometry.C27_ellipse_partial",
    "Pylbm.Geometry.C27_ellipse_on_curve",
    "Pylbm.Geometry.C27_ellipse_negation",
    "Pylbm.Geometry.C27_circle_partial",
    "Pylbm.Geometry.C27_ellipsoid_partial",
    "Pylbm.Geometry.C27_ellipsoid_on_surface",
    "Pylbm.Geometry.C27_sphere_partial"
   ],
   "note": "Exact from any point off the curve; from a point of the curve the code always answers -1 (witness), so the statement is false there."
  },
  {
   "property": "C28",
   "status": "proved",
   "theorems": [
    "Pylbm.Geometry.C28_cylinder_inside",
    "Pylbm.Geometry.C28_cylinder_disc_inside",
    "Pylbm.Geometry.C28_cylinder_triangle_inside",
    "Pylbm.Geometry.C28_parallelepiped_inside",
    "Pylbm.Geometry.C28_triangle_inside",
    "Pylbm.Geometry.C28_parallelogram_inside",
    "Pylbm.Geometry.C28_ellipse_inside",
    "Pylbm.Geometry.C28_circle_inside",
    "Pylbm.Geometry.C28_ellipsoid_inside",
    "Pylbm.Geometry.C28_sphere_inside",
    "Pylbm.Geometry.C28_round_iff",
    "Pylbm.Geometry.C28_ellipse_iff"
   ],
   "note": "Every element of the library: exact membership, boundary included."
  },
  {
   "property": "C29",
   "status": "partial",
   "theorems": [
    "Pylbm.Domain.C29_domain_negation",
    "Pylbm.Geometry.C29_parallelepiped_bounds_negation",
    "Pylbm.Geometry.C29_cylinder_triangle_bounds_negation",
    "Pylbm.Geometry.C29_cylinder_disc_bounds_negation",
    "Pylbm.Geometry.C29_cylinder_bounds_partial",
    "Pylbm.Geometry.C29_cylinder_enlarged_partial",
    "Pylbm.Geometry.C29_parallelogram_bounds",
    "Pylbm.Geometry.C29_triangle_bounds",
    "Pylbm.Geometry.C29_circle_bounds",
    "Pylbm.Geometry.C29_ellipse_bounds_partial",
    "Pylbm.Geometry.C29_ellipse_bounds_tolerance_partial",
    "Pylbm.Geometry.C29_ellipse_bounds_negation",
    "Pylbm.Geometry.C29_ellipsoid_bounds_partial",
    "Pylbm.Geometry.C29_sphere_bounds"
   ],
   "note": "Proved for circles, spheres, triangles, parallelograms, ellipses and ellipsoids with orthogonal axes; false for ellipses within the 1e-14 tolerance, for every parallelepiped and every triangular cylinder, and for tall round cylinders; in a domain, cells at both ends of a solid parallelepiped stay fluid (C29_domain_negation)."
  },
  {
   "property": "C30",
   "status": "partial",
   "theorems": [
    "Pylbm.Boundary.C30_ghosts_are_links",
    "Pylbm.Boundary.C30_update_order",
    "Pylbm.Boundary.C30_label_999_negation"
   ],
   "note": "ghost writes are exactly the opposite-velocity ends of flagged links, each once; on a built domain the update never touches a fluid position and does not depend on the order (methods reading one inner cell). C30_label_999_negation: label 999 collides with the \"no boundary\" flag, so labels other than 999 are a hypothesis."
  },
  {
   "property": "C31",
   "status": "proved",
   "theorems": [
    "Pylbm.Boundary.C31_wall_point",
    "Pylbm.Boundary.C31_wall_point_on_wall",
    "Pylbm.Boundary.C31_plane"
   ],
   "note": "wall point of every column lies on the wall: on the face plane of the box, or on the boundary curve of the element (C31_plane for the library shapes)."
  },
  {
   "property": "C32",
   "status": "proved",
   "theorems": [
    "Pylbm.Boundary.C32_mass_general",
    "Pylbm.Boundary.C32_bounce_back_mass"
   ],
   "note": "total mass over fluid cells is unchanged by bounce-back + transport on any built domain whose outgoing links are all bounce-back (with periodic representative in C32_mass_general)."
  },
  {
   "property": "C33",
   "status": "partial",
   "theorems": [
    "Pylbm.Boundary.C33_uniform_equilibrium_partial",
    "Pylbm.Boundary.C33_bouzidi_error",
    "Pylbm.Boundary.C33_bouzidi_negation",
    "Pylbm.Boundary.C33_bouzidi_anti_negation"
   ],
   "note": "proved for all methods where it holds; C33_bouzidi_negation and C33_bouzidi_anti_negation show where it fails, C33_bouzidi_error gives the exact defect."
  },
  {
   "property": "C34",
   "status": "proved",
   "theorems": [
    "Pylbm.Boundary.C34_weights",
    "Pylbm.Boundary.C34_half",
    "Pylbm.Boundary.C34_interpolation"
   ],
   "note": "weights in [0,1], agreement of the two branches at 1/2, and the written value is the linear interpolation of Bouzidi at the stated abscissae."
  },
  {
   "property": "C35",
   "status": "partial",
   "theorems": [
    "Pylbm.Boundary.C35_bouzidi_bounce_back",
    "Pylbm.Boundary.C35_disjoint_reads_partial",
    "Pylbm.Boundary.C35_bouzidi_anti_negation"
   ],
   "note": "proved for interpolated bounce-back in any geometry and for every method when reads and writes are disjoint; C35_bouzidi_anti_negation shows order dependence of the interpolated anti bounce-back in a one-cell channel."
  },
  {
   "property": "C36",
   "status": "partial",
   "theorems": [
    "Pylbm.Scheme.C36_rearrangement",
    "Pylbm.Scheme.C36_front_iff",
    "Pylbm.Scheme.C36_collision_partial",
    "Pylbm.Scheme.C36_order_negation",
    "Pylbm.Scheme.C36_positions"
   ],
   "note": "The reordering is a permutation of rows and the conserved moments come first in user order exactly when every conserved moment stands at or after its target (C36_front_iff); then the collision on distributions is unchanged. False in general: C36_order_negation. Positions found by _get_conserved_moments are right and distinct (C36_positions)."
  },
  {
   "property": "C37",
   "status": "proved",
   "theorems": [
    "Pylbm.Scheme.C37_global_inverse",
    "Pylbm.Scheme.C37_blocks",
    "Pylbm.Scheme.C37_permuted_inverse",
    "Pylbm.Scheme.C37_f2m_m2f"
   ],
   "note": "Block matrices of any number of schemes, any sizes, with and without reordering; invertibility is the success of SymPy's inv."
  },
  {
   "property": "C38",
   "status": "proved",
   "theorems": [
    "Pylbm.Scheme.C38_relaxation",
    "Pylbm.Scheme.C38_equilibrium"
   ],
   "note": "The generated assignments are sequential; the theorem shows that they compute the simultaneous relaxation and equilibrium."
  },
  {
   "property": "C39",
   "status": "partial",
   "theorems": [
    "Pylbm.Sim.C39_accesses",
    "Pylbm.Sim.C39_step_partial",
    "Pylbm.Sim.C39_step_general",
    "Pylbm.Sim.C39_composition_partial",
    "Pylbm.Sim.C39_composition_negation",
    "Pylbm.Sim.C39_split_negation",
    "Pylbm.Sim.C39_relative_velocity_negation"
   ],
   "note": "C39_step_general: for all backends, algorithms, settings, loop orders and contents, one_time_step after the boundary conditions is the per-cell collision of the pulled distributions (with check_isfluid: on the fluid cells), except split with a relative velocity. C39_composition_partial: with NumPy the successive public calls give the same values. False for the C backends, whose transport writes Fnew which f2m does not read (C39_composition_negation); for split with a relative velocity (C39_split_negation); and the public phases ignore the relative velocity (C39_relative_velocity_negation)."
  },
  {
   "property": "C40",
   "status": "proved",
   "theorems": [
    "Pylbm.Sim.C40_interleaving",
    "Pylbm.Sim.C40_loop_order",
    "Pylbm.Sim.C40_single_array_order"
   ],
   "note": "C40_interleaving: any interleaving of the per-cell programs (threads); C40_loop_order: any two orders of the loops. C40_single_array_order shows that two arrays are needed: with one array the order matters."
  },
  {
   "property": "C41",
   "status": "partial",
   "theorems": [
    "Pylbm.Sim.C41_conservation",
    "Pylbm.Sim.C41_relative_velocity",
    "Pylbm.Sim.C41_base_negation"
   ],
   "note": "C41_conservation: all process grids, schedules, backends, settings, both algorithms, nonlinear equilibria, without sources and relative velocity; C41_relative_velocity: Pull algorithm with a relative velocity. False for Base with a relative velocity (C41_base_negation)."
  },
  {
   "property": "C42",
   "status": "partial",
   "theorems": [
    "Pylbm.Sim.C42_global_partial",
    "Pylbm.Sim.C42_periodic",
    "Pylbm.Sim.C42_run_exists",
    "Pylbm.Sim.C42_walls_partial"
   ],
   "note": "C42_periodic: complete for periodic domains, any two process grids, schedules, backends and settings. C42_walls_partial: with walls, obstacles and any boundary methods with values depending on the point and on the time, when no link through an interface between processes meets an element (else false, C62_negation) and no method reads a position written by a method (always true for one-cell methods). C42_global_partial: the general form with an abstract agreement of boundary conditions. C42_run_exists: the runs exist. With check_isfluid: C73."
  },
  {
   "property": "C43",
   "status": "proved",
   "theorems": [
    "Pylbm.Sim.C43_counters",
    "Pylbm.Sim.C43_newest"
   ],
   "note": "C43_counters and C43_newest: over all sequences of public operations."
  },
  {
   "property": "C44",
   "status": "partial",
   "theorems": [
    "Pylbm.Sim.C44_read_partial",
    "Pylbm.Sim.C44_transport_negation",
    "Pylbm.Sim.C44_view_negation",
    "Pylbm.Sim.C44_other_moment_negation"
   ],
   "note": "C44_read_partial: invariant over all sequences of public operations other than transport and writes through views, on the cells not changed by boundary_condition. False in general: C44_transport_negation, C44_view_negation, C44_other_moment_negation."
  },
  {
   "property": "C45",
   "status": "partial",
   "theorems": [
    "Pylbm.Scheme.C45_half_step_partial",
    "Pylbm.Scheme.C45_no_source",
    "Pylbm.Scheme.C45_step_partial",
    "Pylbm.Scheme.C45_coupled_negation",
    "Pylbm.Scheme.C45_fraction_negation"
   ],
   "note": "Proved for sources which never use a moment already updated in the same half step (C45_half_step_partial, C45_step_partial for both algorithms); moments without source never change (C45_no_source). False for coupled sources (C45_coupled_negation); the fraction argument is ignored (C45_fraction_negation)."
  },
  {
   "property": "C46",
   "status": "partial",
   "theorems": [
    "Pylbm.Scheme.C46_pull",
    "Pylbm.Scheme.C46_translation",
    "Pylbm.Scheme.C46_base_negation",
    "Pylbm.Scheme.C46_frame_partial",
    "Pylbm.Scheme.C46_matrix",
    "Pylbm.Scheme.C46_matrix_negation",
    "Pylbm.Scheme.C46_parameters_negation"
   ],
   "note": "Proved for the Pull algorithm without sources: conserved moments (C46_pull) for translation matrices inverse of each other, which C46_translation proves for translation invariant spans; with parameters 0 for the conserved moments the step is the collision in the moving frame (C46_frame_partial). False for the Base algorithm (C46_base_negation), for other parameters of the conserved moments (C46_parameters_negation) and for a scheme given by its matrix, where the relative velocity is ignored (C46_matrix, C46_matrix_negation)."
  },
  {
   "property": "C47",
   "status": "partial",
   "theorems": [
    "Pylbm.Symbolic.C47_complete",
    "Pylbm.Symbolic.C47_values_exist",
    "Pylbm.Symbolic.C47_empty_negation"
   ],
   "note": "C47_complete (acyclic definitions, any order, any number of levels; all entries of a matrix) and C47_values_exist. An empty list of replacements raises UnboundLocalError (C47_empty_negation)."
  },
  {
   "property": "C48",
   "status": "proved",
   "theorems": [
    "Pylbm.Stability.C48_charpoly"
   ],
   "note": "C48_charpoly: over every field of characteristic 0, all sizes n >= 1, exact arithmetic."
  },
  {
   "property": "C49",
   "status": "proved",
   "theorems": [
    "Pylbm.Stability.C49_schur"
   ],
   "note": "is_S is True exactly when all the complex roots have modulus < 1, for every list of at least two complex coefficients with non-zero last one. Exact arithmetic."
  },
  {
   "property": "C50",
   "status": "partial",
   "theorems": [
    "Pylbm.Stability.C50_vN_partial",
    "Pylbm.Stability.C50_svN_partial",
    "Pylbm.Stability.C50_matrix",
    "Pylbm.Stability.C50_tolerance_negation"
   ],
   "note": "Every von Neumann (simple von Neumann) polynomial is accepted for every positive tolerance, and every other polynomial is rejected for some tolerance; C50_matrix carries this to algo_cohn_schur (False implies an eigenvalue outside). With the fixed tolerance TPV = 1e-10 'only then' is false: C50_tolerance_negation, a monic cubic with a root of modulus > 4 is accepted by both tests."
  },
  {
   "property": "C51",
   "status": "partial",
   "theorems": [
    "Pylbm.Stability.C51_linear",
    "Pylbm.Stability.C51_linearised",
    "Pylbm.Stability.C51_relative_negation"
   ],
   "note": "Proved for linear equilibria (any number of steps, periodic boxes, Base and Pull) and, by differentiation at a uniform equilibrium state, for nonlinear equilibria and state dependent relaxation parameters. With a relative velocity it is false: C51_relative_negation."
  },
  {
   "property": "C52",
   "status": "partial",
   "theorems": [
    "Pylbm.Hdf5.C52_scalar",
    "Pylbm.Hdf5.C52_vector",
    "Pylbm.Hdf5.C52_grid_partial",
    "Pylbm.Hdf5.C52_ragged_negation",
    "Pylbm.Hdf5.C52_vector_inside",
    "Pylbm.Hdf5.C52_xdmf_negation",
    "Pylbm.Hdf5.C52_grid_iff",
    "Pylbm.Hdf5.C52_origin",
    "Pylbm.Hdf5.C52_mesh_negation"
   ],
   "note": "Model of H5File: set_grid, gathering of the sizes, slices, writes, sizes in the XDMF file. Each entry is written once with the value of its owner (scalar and vector). set_grid works exactly when each direction is divided evenly and each process has two cells or more (C52_grid_iff). The sizes of the 2D vectors and of the mesh in the XDMF file disagree with the datasets (C52_xdmf_negation, C52_mesh_negation)."
  },
  {
   "property": "C53",
   "status": "partial",
   "theorems": [
    "Pylbm.Monitor.C53_times_partial",
    "Pylbm.Monitor.C53_add_partial",
    "Pylbm.Monitor.C53_self_times_partial",
    "Pylbm.Monitor.C53_recursion_negation",
    "Pylbm.Monitor.C53_exception_negation"
   ],
   "note": "Recorded times are those of the calls, in order, for all programs whose monitored functions do not call themselves, and the self times sum up to the outermost calls; false for recursion and after exceptions (negations for all times)."
  },
  {
   "property": "C54",
   "status": "proved",
   "theorems": [
    "Pylbm.Util.C54_cube",
    "Pylbm.Util.C54_lightness",
    "Pylbm.Util.C54_formula"
   ],
   "note": "Exact arithmetic in any ordered field with floor. Besides the two claims, the result is the closed formula of the HSL space for every h, s, l."
  },
  {
   "property": "C55",
   "status": "proved",
   "theorems": [
    "Pylbm.Util.C55_bar",
    "Pylbm.Util.C55_grows",
    "Pylbm.Util.C55_share"
   ],
   "note": "The floating point division is any monotone rounding that is exact on integers, so the result covers floats as well as exact arithmetic."
  },
  {
   "property": "C56",
   "status": "proved",
   "theorems": [
    "Pylbm.Util.C56_items",
    "Pylbm.Util.C56_order"
   ],
   "note": "All kinds of requests; list order and repetitions are kept."
  },
  {
   "property": "C57",
   "status": "partial",
   "theorems": [
    "Pylbm.Boundary.C57_refresh",
    "Pylbm.Boundary.C57_simulation",
    "Pylbm.Boundary.C57_kept_value_negation",
    "Pylbm.Boundary.C57_calls"
   ],
   "note": "C57_calls holds for any function of the user (times and arrays of each call); C57_refresh and C57_simulation for the functions which write the conserved moments they impose (Writes); C57_kept_value_negation shows that this hypothesis is needed, so the property is false for functions which write only at some times."
  },
  {
   "property": "C58",
   "status": "partial",
   "theorems": [
    "Pylbm.Describe.C58_add_elem_partial",
    "Pylbm.Describe.C58_add_elem_negation",
    "Pylbm.Describe.C58_box_partial",
    "Pylbm.Describe.C58_skipped_negation",
    "Pylbm.Describe.C58_faces_partial",
    "Pylbm.Describe.C58_length_negation",
    "Pylbm.Describe.C58_sides_partial",
    "Pylbm.Describe.C58_elements",
    "Pylbm.Describe.C58_labels",
    "Pylbm.Describe.C58_labels_perm"
   ],
   "note": "Labels and elements are proved in full. A box with z but without y is accepted as a 1D box, label lists of the wrong length are accepted, and add_elem does not check the dimension: the three negations are proved. C58_add_elem_partial: elements of the right dimension added later are read like those of the dictionary."
  },
  {
   "property": "C59",
   "status": "partial",
   "theorems": [
    "Pylbm.Domain.C59_parallelepiped_negation",
    "Pylbm.Domain.C59_plane_partial",
    "Pylbm.Domain.C59_solid_links_flagged_partial",
    "Pylbm.Domain.C59_box_links_flagged_partial",
    "Pylbm.Domain.C59_space_partial",
    "Pylbm.Domain.C59_reopened_negation",
    "Pylbm.Domain.C59_on_border_negation",
    "Pylbm.Domain.C59_periodic_negation",
    "Pylbm.Sim.C59_corner_negation"
   ],
   "note": "Library shapes in 2D (C59_plane_partial) and 3D (C59_space_partial), with the hypotheses that no centre lies on a border, no cell is re-opened, and the link does not go through a periodic face; the excluded cases are refuted by witnesses. The diagonal links at the corners of a channel (periodic in x, walls in y) carry the periodic label: C59_corner_negation. False for parallelepipeds even when all their cells are solid: C59_parallelepiped_negation."
  },
  {
   "property": "C60",
   "status": "partial",
   "theorems": [
    "Pylbm.Geometry.C60_ellipse_normal",
    "Pylbm.Geometry.C60_ellipsoid_normal",
    "Pylbm.Geometry.C60_cylinder_negation",
    "Pylbm.Geometry.C60_cylinder_partial"
   ],
   "note": "Ellipses and ellipsoids proved; false for cylinders (witness).; right circular cylinders C60_cylinder_partial (orthogonal to the surface, not along the link, length of the columns)"
  },
  {
   "property": "C61",
   "status": "partial",
   "theorems": [
    "Pylbm.Domain.C61_negation",
    "Pylbm.Domain.C61_build_total_partial"
   ],
   "note": "Refuted for an element ending shortly before the local box; no failure when each element ends at or after the start of the local box."
  },
  {
   "property": "C62",
   "status": "partial",
   "theorems": [
    "Pylbm.Domain.C62_restriction_partial",
    "Pylbm.Domain.C62_away_partial",
    "Pylbm.Domain.C62_negation"
   ],
   "note": "C62_restriction_partial: equality of the map, and of every link not leading beyond an interface between processes. C62_away_partial: equality also of the links through an interface when no element is met by them and the neighbours are at least as wide as the halo. Links through an interface which meet an element are refuted by a witness (C62_negation): the full statement is false there."
  },
  {
   "property": "C63",
   "status": "partial",
   "theorems": [
    "Pylbm.Stability.C63_stable_partial",
    "Pylbm.Stability.C63_answers",
    "Pylbm.Stability.C63_unstable"
   ],
   "note": "The announcement 'not stable' is proved correct. 'Stable' is proved correct for the exact test (all tolerances); with the tolerance 1e-10 of the code the test can accept larger eigenvalues (C50_tolerance_negation)."
  },
  {
   "property": "C64",
   "status": "partial",
   "theorems": [
    "Pylbm.Geometry.C64_triangle_label",
    "Pylbm.Geometry.C64_parallelogram_label",
    "Pylbm.Geometry.C64_cylinder_label",
    "Pylbm.Geometry.C64_parallelepiped_label",
    "Pylbm.Geometry.C64_documented_order_negation",
    "Pylbm.Geometry.C64_drawn_parallelepiped_negation",
    "Pylbm.Geometry.C64_drawn_triangle_negation"
   ],
   "note": "Which label each hit carries is proved for triangles, parallelograms, cylinders and parallelepipeds; the documented order of the labels of a cylinder and the colours drawn by _visualize are disproved with witnesses."
  },
  {
   "property": "C65",
   "status": "proved",
   "theorems": [
    "Pylbm.Domain.C65_any_bounds",
    "Pylbm.Domain.C65_cylinders",
    "Pylbm.Domain.C65_same_wall",
    "Pylbm.Domain.C65_normal_outward",
    "Pylbm.Domain.C65_plane",
    "Pylbm.Domain.C65_space"
   ],
   "note": "Provenance of distance, label and normal for every list of elements, whatever their bounds (C65_any_bounds); the normal does not point back when the normals of the elements do not point along the direction. C65_plane, C65_space and C65_cylinders: for every list of shapes or solids of the library, each link which carries a distance leads to a face of the box or to a point of the boundary of one of the shapes, with the label and the unit normal of the boundary there (no normal for cylinders: C60_cylinder_negation; STL meshes: C72)."
  },
  {
   "property": "C66",
   "status": "partial",
   "theorems": [
    "Pylbm.Domain.C66_nearest_wall_partial",
    "Pylbm.Domain.C66_order_partial",
    "Pylbm.Domain.C66_nearest_wall_negation"
   ],
   "note": "Proved for solid elements when the target of the link is out of the grid or in an element already added at the moment each wall is met; the general statement is disproved with a thin wall added before the block behind it."
  },
  {
   "property": "C67",
   "status": "partial",
   "theorems": [
    "Pylbm.Stability.C67_second_order",
    "Pylbm.Stability.C67_source_negation",
    "Pylbm.Stability.C67_nonlinear_convergence",
    "Pylbm.Stability.C67_start_at_equilibrium",
    "Pylbm.Stability.C67_only_equation",
    "Pylbm.Stability.C67_equilibrium_second_order",
    "Pylbm.Stability.C67_equilibrium_second_order_one_dimension",
    "Pylbm.Stability.C67_linear_stability",
    "Pylbm.Stability.C67_one_dimension",
    "Pylbm.Stability.C67_truncation"
   ],
   "note": "Linear equilibria and constant relaxation parameters in ]0,2[: convergence for finite sums of plane waves on periodic boxes (C67_second_order). Nonlinear equilibria and state dependent relaxation parameters, smooth on an open set: for each smooth periodic solution of the printed equation up to O(dt^2), one step of the generated code commits an error of order dt^3 (C67_truncation), and conversely smooth periodic populations on which one step commits an error of order dt^3 have conserved moments which solve the printed equation up to O(dt^2) (C67_only_equation); second order convergence in one dimension when the derivative of the collision at the equilibria does not increase positive quadratic forms which do not mix velocities (C67_one_dimension; in more dimensions as long as the error stays of order dt in each cell, C67_linear_stability), and in any dimension when the collision leaves intervals of the populations invariant and does not increase distances there (C67_nonlinear_convergence), first order when started at equilibrium (C67_start_at_equilibrium). Runs started at equilibrium, as the code does, with relaxation parameters in ]0,2[: second order, by an initial layer (C67_equilibrium_second_order, C67_equilibrium_second_order_one_dimension). Negation for schemes with source terms, which the class ignores. Missing: unconditional convergence of nonlinear schemes in two and three dimensions under the linearised stability alone; alltogether (rewriting of expressions, nsimplify) is the identity in the model."
  },
  {
   "property": "C68",
   "status": "proved",
   "theorems": [
    "Pylbm.Sim.C68_moments",
    "Pylbm.Sim.C68_distributions",
    "Pylbm.Sim.C68_parallel",
    "Pylbm.Sim.C68_runs_agree"
   ],
   "note": "Construction from the dictionary: moments (equilibrium of the given conserved moments, the values given for the other moments are overwritten by the equilibrium), distribution functions, independence of the process grid, and agreement of complete runs on periodic domains with any two process grids."
  },
  {
   "property": "C69",
   "status": "partial",
   "theorems": [
    "Pylbm.Sim.C69_views_partial",
    "Pylbm.Sim.C69_momentum_negation",
    "Pylbm.Sim.C69_source_negation"
   ],
   "note": "Proved for moments of degree zero without sources (the scalar equations of the demos); negations for a momentum and for source terms."
  },
  {
   "property": "C70",
   "status": "partial",
   "theorems": [
    "Pylbm.Codegen.C70_boundary_partial",
    "Pylbm.Codegen.C70_boundary_negation",
    "Pylbm.Codegen.C70_callable_partial",
    "Pylbm.Codegen.C70_rates_negation",
    "Pylbm.Codegen.C70_position_equilibrium_negation",
    "Pylbm.Codegen.C70_position_step_negation",
    "Pylbm.Codegen.C70_shadow_negation",
    "Pylbm.Codegen.C70_unbound_negation",
    "Pylbm.Codegen.C70_python_negation",
    "Pylbm.Codegen.C70_word_negation",
    "Pylbm.Codegen.C70_lambda_negation",
    "Pylbm.Codegen.C70_keyword_negation",
    "Pylbm.Codegen.C70_loop_negation"
   ],
   "note": "Proved for all backends (before Python 3.13) when coordinates are not used, relaxation parameters do not depend on conserved moments and extra parameters have names which are neither used by pylbm nor reserved words; the arguments of all the boundary methods are found (C70_boundary_partial). Each restriction comes with a general theorem showing the failure: position, rates, shadowed, unbound, reserved words, keywords, lambda = 0, and Python 3.13 (C70_python_negation, C70_boundary_negation). The behaviour of locals() and exec is transcribed from CPython."
  },
  {
   "property": "C71",
   "status": "proved",
   "theorems": [
    "Pylbm.Stl.C71_intersection",
    "Pylbm.Stl.C71_first_hit",
    "Pylbm.Stl.C71_seen"
   ],
   "note": "Exact arithmetic; triangles parallel to the link are ignored by the code, C71_seen asks that the link meets none of them."
  },
  {
   "property": "C72",
   "status": "partial",
   "theorems": [
    "Pylbm.Stl.C72_point_inside_partial",
    "Pylbm.Stl.C72_negation"
   ],
   "note": "Holds when the deciding half line meets the mesh only inside triangles; false through edges (C72_negation)."
  },
  {
   "property": "C73",
   "status": "proved",
   "theorems": [
    "Pylbm.Sim.C73_fluid_cells",
    "Pylbm.Sim.C73_check_isfluid"
   ],
   "note": "Abstract theorem for any boundary conditions which shield the fluid cells, and theorem for walls and obstacles with the fluid map of each process taken from its own domain. The hypothesis on the links is proved for boxes without periodic faces (allLinks_closed, through C59); an obstacle which touches a periodic face violates it (C59_periodic_negation)."
  },
  {
   "property": "C74",
   "status": "partial",
   "theorems": [
    "Pylbm.Boundary.C74_wall_formula",
    "Pylbm.Boundary.C74_interpolated_formula"
   ],
   "note": "Proved for every mix of classes: C74_wall_formula gives the value of every link whose cells read are fluid (always so for bounce-back, anti bounce-back, Neumann and for the interpolated classes at distances of at least 1/2). When the next cell of an interpolated link is itself a ghost position, C74_interpolated_formula covers the interpolated bounce-back alone; the other cases are those where C35 shows that the order matters."
  },
  {
   "property": "C75",
   "status": "partial",
   "theorems": [
    "Pylbm.Layout.C75_layout_partial",
    "Pylbm.Layout.C75_end_negation",
    "Pylbm.Layout.C75_empty_negation"
   ],
   "note": "C75_layout_partial: exact for all routines whose statements do not end with \":\" or \"end\" and whose loops have something to print. A statement ending with a symbol like `bend` leaves the loop silently (C75_end_negation, for all such statements); a loop where both sides of all assignments are equal is refused by Python (C75_empty_negation)."
  },
  {
   "property": "C76",
   "status": "partial",
   "theorems": [
    "Pylbm.Printing.C76_value_partial",
    "Pylbm.Printing.C76_numpy_exact_partial",
    "Pylbm.Printing.C76_symbolic_exponent_negation",
    "Pylbm.Printing.C76_cython_rational_negation",
    "Pylbm.Printing.C76_piecewise_negation"
   ],
   "note": "For every expression in the form SymPy keeps and every printer, the text is read by the grammar of Python with one value, that of the expression with the numbers as written; NumPy accepts all of them and is exact without floats. Negations: a symbol as exponent (Cython, Loopy), 1/3 in Cython, Piecewise in Cython. Conditions (`Piecewise`, relations, logical operators) and matrices are not in the model; the order of the terms and the SymPy base printers are transcribed."
  },
  {
   "property": "C77",
   "status": "partial",
   "theorems": [
    "Pylbm.Scheme.C77_succeeds",
    "Pylbm.Scheme.C77_refused",
    "Pylbm.Scheme.C77_places",
    "Pylbm.Scheme.C77_feq",
    "Pylbm.Scheme.C77_bgk",
    "Pylbm.Scheme.C77_code_partial",
    "Pylbm.Scheme.C77_sizes_negation"
   ],
   "note": "Places of all the entries, inverse matrices and feq proved for all lists of schemes whose entries have the sizes of the stencils (C77_succeeds, C77_places, C77_feq, C77_bgk), and for the code generated from the reordered scheme when the conserved moments keep their order and there are no sources (C77_code_partial). Wrong sizes which compensate are accepted (C77_sizes_negation)."
  },
  {
   "property": "C78",
   "status": "partial",
   "theorems": [
    "Pylbm.Sim.C78_mass",
    "Pylbm.Sim.C78_relative_velocity",
    "Pylbm.Sim.C78_closed_box",
    "Pylbm.Sim.C78_channel",
    "Pylbm.Sim.C78_interpolated_negation",
    "Pylbm.Sim.C78_long_velocities_negation"
   ],
   "note": "Any decomposition, schedule, backend, Base and Pull, coupled schemes, with and without relative velocity (C78_mass, C78_relative_velocity), for domains where a link is open from both ends or closed from both ends; that condition is proved for closed boxes with obstacles (C78_closed_box) and for boxes with periodic directions and obstacles away from the periodic faces (C78_channel, velocities with components -1, 0, 1). False for the interpolated bounce-back and for longer velocities at the edges of a channel (witnesses)."
  },
  {
   "property": "C79",
   "status": "partial",
   "theorems": [
    "Pylbm.Source.C79_value_partial",
    "Pylbm.Source.C79_local_partial",
    "Pylbm.Source.C79_name_negation",
    "Pylbm.Source.C79_shared_negation",
    "Pylbm.Source.C79_index_negation",
    "Pylbm.Source.C79_order_negation",
    "Pylbm.Source.C79_digits_negation"
   ],
   "note": "Proved for all expressions, lists of source terms, orders which keep the space axes in increasing order, names other than m, consm, sorder and default_index, and indices without comma, bracket or conserved moment inside; also for moments local to the loop (without indices there). False otherwise, with witnesses; the coefficients are rounded to 15 digits by the text."
  },
  {
   "property": "C80",
   "status": "partial",
   "theorems": [
    "Pylbm.Sim.C80_uniform",
    "Pylbm.Sim.C80_equilibrium",
    "Pylbm.Sim.C80_rest",
    "Pylbm.Sim.C80_imposed",
    "Pylbm.Sim.C80_interpolated_negation"
   ],
   "note": "C80_equilibrium for all methods whose imposed values agree with the populations (C80_rest, C80_imposed); false for the interpolated methods with a uniform flow when the wall is not halfway (C80_interpolated_negation). Hypotheses of C73: every link of a fluid cell is open or has a method which reads fluid cells. C80_uniform covers sources and relative velocities through the fixed point of the collision."
  },
  {
   "property": "C81",
   "status": "proved",
   "theorems": [
    "Pylbm.Sim.C81_symmetry",
    "Pylbm.Sim.C81_translation",
    "Pylbm.Sim.C81_mirror",
    "Pylbm.Sim.C81_quarter_turn",
    "Pylbm.Sim.C81_collision"
   ],
   "note": "C81_symmetry for any symmetry of the box and of the collision; C81_translation, C81_mirror, C81_quarter_turn give the symmetries of the box and C81_collision those of the scheme (no source, no relative velocity). Periodic domains only."
  },
  {
   "property": "C82",
   "status": "proved",
   "theorems": [
    "Pylbm.Sim.C82_bounds",
    "Pylbm.Sim.C82_bgk",
    "Pylbm.Sim.C82_anti_negation"
   ],
   "note": "C82_bounds for any collision which keeps the bounds, C82_bgk for one relaxation parameter in [0, 1]; hypotheses on the domain as in C73. C82_anti_negation: anti bounce-back is excluded for a reason."
  },
  {
   "property": "C83",
   "status": "partial",
   "theorems": [
    "Pylbm.Loopy.C83_order",
    "Pylbm.Loopy.C83_eleven_negation",
    "Pylbm.Loopy.C83_step_partial",
    "Pylbm.Loopy.C83_result_partial",
    "Pylbm.Loopy.C83_coupled_negation",
    "Pylbm.Loopy.C83_empty_negation"
   ],
   "note": "For both algorithms, in at most three dimensions, with or without relative velocity, every order of execution which respects the dependencies gives the result of the text, and such an order exists. Partial: false for coupled source terms (C83_coupled_negation), when an equation is printed without any assignment (C83_empty_negation) and beyond ten equations in a kernel (C83_eleven_negation). The reading of the kernel by Loopy (names, patterns, freedom of order) is from its documentation."
  },
  {
   "property": "C84",
   "status": "partial",
   "theorems": [
    "Pylbm.Halo.Gpu.C84_update_partial",
    "Pylbm.Halo.Gpu.C84_wide_negation",
    "Pylbm.Halo.Gpu.C84_flat_negation",
    "Pylbm.Halo.Gpu.C84_parallel_negation"
   ],
   "note": "Proved for one process and halos of one cell in every direction, for all sizes and any order of the assignments inside a kernel. False otherwise: wider halos, directions without halo, several processes (three negations for all sizes)."
  },
  {
   "property": "C85",
   "status": "partial",
   "theorems": [
    "Pylbm.Storage.Device.C85_same_partial",
    "Pylbm.Storage.Device.C85_stale_negation",
    "Pylbm.Storage.Device.C85_view_negation",
    "Pylbm.Storage.Device.C85_read",
    "Pylbm.Storage.Device.C85_reset_negation"
   ],
   "note": "Proved for all histories in which an array is read before it is assigned and the arrays returned by reads are not modified; C85_read: after any number of time steps the user reads what the last step has computed. False otherwise (three negations, for all states, kernels and numbers of steps)."
  },
  {
   "property": "C86",
   "status": "partial",
   "theorems": [
    "Pylbm.Domain.C86_domain",
    "Pylbm.Domain.C86_turn_negation",
    "Pylbm.Domain.C86_failure_negation",
    "Pylbm.Domain.C86_shapes",
    "Pylbm.Domain.C86_cylinders",
    "Pylbm.Domain.C86_parallelepipeds",
    "Pylbm.Domain.C86_solids",
    "Pylbm.Domain.C86_space",
    "Pylbm.Domain.C86_plane",
    "Pylbm.Sim.C86_mirror",
    "Pylbm.Sim.C86_symmetric"
   ],
   "note": "C86_domain: fluid map and links of the mirrored domain, any list of elements; C86_shapes, C86_solids, C86_cylinders, C86_parallelepipeds: the shapes and solids of the library with mirrored parameters are mirror images (normals included), C86_plane and C86_space: the domains built from lists of them; C86_mirror: the solutions at every step, walls, obstacles, all boundary methods, any two decompositions; C86_symmetric: symmetric problems. False for the exchange of the axes (C86_turn_negation: labels of corner links) and for the success of the construction (C86_failure_negation)."
  },
  {
   "property": "C87",
   "status": "partial",
   "theorems": [
    "Pylbm.Domain.C87_solid",
    "Pylbm.Domain.C87_fluid_map",
    "Pylbm.Domain.C87_links_partial",
    "Pylbm.Domain.C87_box_label_negation"
   ],
   "note": "C87_solid: for all geometries made of elements of the library and solid STL parts the domain is the one of the bounded regions; C87_fluid_map and C87_links_partial are the consequences for the fluid map and the links (links along a triangle or starting on the surface are left out). C87_box_label_negation: for a fluid STL part as last element the links through the faces of the box lose their label."
  },
  {
   "property": "C88",
   "status": "proved",
   "theorems": [
    "Pylbm.Sim.C88_speed",
    "Pylbm.Sim.C88_separated"
   ],
   "note": "C88_speed compares two runs on all the cells (C42), C88_separated two runs restricted to the fluid (C73)."
  },
  {
   "property": "C89",
   "status": "partial",
   "theorems": [
    "Pylbm.Domain.C89_domain",
    "Pylbm.Domain.C89_normals",
    "Pylbm.Domain.C89_coordinates",
    "Pylbm.Domain.C89_cells_partial",
    "Pylbm.Domain.C89_cells_negation",
    "Pylbm.Domain.C89_shapes",
    "Pylbm.Domain.C89_plane",
    "Pylbm.Domain.C89_ellipsoids",
    "Pylbm.Domain.C89_cylinders",
    "Pylbm.Domain.C89_cylinder_normals_negation",
    "Pylbm.Domain.C89_axes_negation",
    "Pylbm.Sim.C89_collision",
    "Pylbm.Sim.C89_matrices",
    "Pylbm.Sim.C89_units"
   ],
   "note": "The fluid map, distances, labels, coordinates, collision and all the runs are the same in all units (C89_domain, C89_coordinates, C89_collision, C89_units); normals for shapes of the plane, spheres and ellipsoids (C89_plane, C89_ellipsoids). False for the normals of cylinders, for the test of the sides of the box which are not multiples of the step and for the test of orthogonality of axes (negations)."
  },
  {
   "property": "C90",
   "status": "proved",
   "theorems": [
    "Pylbm.Sim.C90_collision",
    "Pylbm.Sim.C90_schemes",
    "Pylbm.Sim.C90_superposition",
    "Pylbm.Sim.C90_initial",
    "Pylbm.Sim.C90_imposed",
    "Pylbm.Sim.C90_difference",
    "Pylbm.Sim.C90_nonlinear_negation"
   ],
   "note": "as C73 for the domain; the relaxation parameters and the relative velocity are constants"
  },
  {
   "property": "C91",
   "status": "partial",
   "theorems": [
    "Pylbm.Input.C91_simulation",
    "Pylbm.Input.C91_scheme",
    "Pylbm.Input.C91_stencil",
    "Pylbm.Input.C91_domain",
    "Pylbm.Input.C91_geometry",
    "Pylbm.Input.C91_one_scheme",
    "Pylbm.Input.C91_one_stencil",
    "Pylbm.Input.C91_all_classes",
    "Pylbm.Input.C91_order",
    "Pylbm.Input.C91_comm_negation",
    "Pylbm.Input.C91_values_negation",
    "Pylbm.Input.C91_empty_negation",
    "Pylbm.Input.C91_method",
    "Pylbm.Input.C91_method_negation",
    "Pylbm.Input.C91_unusable_negation",
    "Pylbm.Input.C91_axes_negation",
    "Pylbm.Input.C91_scheme_values",
    "Pylbm.Input.C91_values",
    "Pylbm.Input.C91_report",
    "Pylbm.Input.C91_report_iff",
    "Pylbm.Input.C91_validate",
    "Pylbm.Input.C91_report_keys",
    "Pylbm.Input.C91_report_message",
    "Pylbm.Input.C91_report_nested",
    "Pylbm.Input.C91_report_schemes",
    "Pylbm.Input.C91_report_items",
    "Pylbm.Input.C91_report_first_negation",
    "Pylbm.Input.C91_reads",
    "Pylbm.Input.C91_dimension",
    "Pylbm.Input.C91_geometry_read",
    "Pylbm.Input.C91_time_and_space_negation"
   ],
   "note": "Which dictionaries are accepted is characterised for the five classes and for the schemes (C91_simulation, C91_scheme, C91_stencil, C91_domain, C91_geometry, C91_one_scheme, C91_one_stencil), with the order of the keys and the relation between the classes. C91_reads is the equivalence between the success of the reads and the condition Usable; the validation does not imply Usable (C91_unusable_negation). The report exists without empty lists (C91_report, C91_report_iff), shows all the faulty keys and the first error of each. The engine of Cerberus is transcribed from its documentation, not verified. Negations: empty lists, comm, time and space symbols, None and one-function tuples, negative keys of methods, box with x and z, other errors of a key."
  },
  {
   "property": "C92",
   "status": "partial",
   "theorems": [
    "Pylbm.Loading.C92_path",
    "Pylbm.Loading.C92_own",
    "Pylbm.Loading.C92_no_trace",
    "Pylbm.Loading.C92_runs",
    "Pylbm.Loading.C92_search_negation",
    "Pylbm.Loading.C92_path_negation",
    "Pylbm.Loading.C92_backend_negation",
    "Pylbm.Loading.C92_second_negation",
    "Pylbm.Loading.C92_step_negation"
   ],
   "note": "C92_own and C92_runs need directories which are not on the search path, one wrapper per directory and different times or sizes of the files; without these conditions the statement is false (negations with any codes)"
  },
  {
   "property": "C93",
   "status": "partial",
   "theorems": [
    "Pylbm.Monitor.C93_bounds",
    "Pylbm.Monitor.C93_pylbm",
    "Pylbm.Monitor.C93_table",
    "Pylbm.Monitor.C93_loopy_negation"
   ],
   "note": "proved for the functions of pylbm with NumPy and Cython (C93_pylbm, C93_bounds, C93_table); with Loopy kernels the table is not printed (C93_loopy_negation)"
  },
  {
   "property": "C94",
   "status": "partial",
   "theorems": [
    "Pylbm.Boundary.C94_boundary",
    "Pylbm.Boundary.C94_label_999_negation",
    "Pylbm.Boundary.C94_loops_iff",
    "Pylbm.Boundary.C94_transport_iff",
    "Pylbm.Boundary.C94_stencil_halo_partial",
    "Pylbm.Boundary.C94_one_sided_negation"
   ],
   "note": "Boundary functions: proved for every built domain, method, value and storage order when no label is 999 (with 999 a write outside the array is shown). Loops over all the cells: inside for all sizes if and only if the order keeps the space axes increasing. Transport: inside for all sizes if and only if the halo is as wide as the velocity in both directions, which holds for symmetric schemes and fails for a one-sided scheme."
  },
  {
   "property": "C95",
   "status": "partial",
   "theorems": [
    "Pylbm.Stability.State.C95_matrix_partial",
    "Pylbm.Stability.State.C95_values_exist",
    "Pylbm.Stability.State.C95_override_ignored",
    "Pylbm.Stability.State.C95_override_negation",
    "Pylbm.Stability.State.C95_long_state",
    "Pylbm.Stability.State.C95_missing_value",
    "Pylbm.Stability.State.C95_sliders",
    "Pylbm.Stability.State.C95_last_move",
    "Pylbm.Stability.State.C95_first_picture_negation",
    "Pylbm.Stability.State.C95_linearization",
    "Pylbm.Stability.State.C95_no_wave_vector"
   ],
   "note": "Proved when the additional parameters are not parameters of the scheme; otherwise they are ignored for all values (proved, with a witness). A missing value is always detected. Sliders: after any move the pictures use the values of all the sliders, only the last positions count; the first pictures do not use them (negation)."
  },
  {
   "property": "C96",
   "status": "partial",
   "theorems": [
    "Pylbm.Picture.C96_shapes",
    "Pylbm.Picture.C96_ellipse_negation",
    "Pylbm.Picture.C96_white",
    "Pylbm.Picture.C96_cells",
    "Pylbm.Picture.C96_markers",
    "Pylbm.Picture.C96_links",
    "Pylbm.Picture.C96_links_drawn",
    "Pylbm.Picture.C96_stencil",
    "Pylbm.Picture.C96_stencil_choice_negation",
    "Pylbm.Picture.C96_labels_iff",
    "Pylbm.Picture.C96_box_faces",
    "Pylbm.Picture.C96_ellipsoid",
    "Pylbm.Picture.C96_sphere",
    "Pylbm.Picture.C96_face_colours",
    "Pylbm.Picture.C96_cylinder",
    "Pylbm.Picture.C96_top_negation"
   ],
   "note": "Proved for the patches of the plane (triangles, parallelograms, circles, ellipses with the longer axis first), for the colours of the box, for markers, links and normals (C65 gives the walls), for all stencils without argument, and for spheres, ellipsoids, round cylinders and the box in space. False, proved for all values: an ellipse with the second axis longer is drawn as a disc of radius |v2| (C96_ellipse_negation), Stencil.visualize with k or unique_velocities writes the numbers of the first scheme (C96_stencil_choice_negation), solid elements in 3D with labels outside [-10, 10) raise (C96_labels_iff), the top of a cylinder takes the colour of the bottom (C96_top_negation). What matplotlib does with a patch is taken from its documentation (PictureSpec). Not modelled: 1D pictures, text of the labels of the elements, fonts, vispy viewer."
  },
  {
   "property": "C97",
   "status": "partial",
   "theorems": [
    "Pylbm.Sim.C97_no_source",
    "Pylbm.Sim.C97_rate",
    "Pylbm.Sim.C97_constant",
    "Pylbm.Sim.C97_linear_partial",
    "Pylbm.Sim.C97_exchange_partial",
    "Pylbm.Sim.C97_relative_negation",
    "Pylbm.Sim.C97_order_negation",
    "Pylbm.Sim.C97_no_source_walls",
    "Pylbm.Sim.C97_rate_walls"
   ],
   "note": "Totals with sources on periodic domains and in closed tanks: moments without source, affine sources of one moment, constant sources (all other sources arbitrary), linear systems and exchanges for triangular sources; false with a relative velocity and the Pull algorithm (half of the source is lost) and for exchanges in the other order."
  },
  {
   "property": "C98",
   "status": "proved",
   "theorems": [
    "Pylbm.Sim.C98_collision",
    "Pylbm.Sim.C98_periodic",
    "Pylbm.Sim.C98_bound",
    "Pylbm.Sim.C98_sharp",
    "Pylbm.Sim.C98_walls",
    "Pylbm.Sim.C98_interpolated_negation",
    "Pylbm.Stability.C98_announced"
   ],
   "note": "C98_collision, C98_periodic, C98_walls (difference of two runs, arbitrary imposed values), C98_bound (one run, bound of every population), C98_sharp (growth outside [0,2]), C98_announced (Stability never answers unstable); false for the interpolated methods (C98_interpolated_negation)"
  },
  {
   "property": "C99",
   "status": "partial",
   "theorems": [
    "Pylbm.Conditions.C99_assignment",
    "Pylbm.Conditions.C99_defined",
    "Pylbm.Conditions.C99_extremum_negation",
    "Pylbm.Conditions.C99_condition_negation",
    "Pylbm.Conditions.C99_piecewise_maximum"
   ],
   "note": "C99_assignment (value in each cell) and C99_defined (exactly which formulas raise an exception); false for Min, Max, And, Or which mix formulas with and without moments, like Max(rho, 0): C99_extremum_negation, C99_condition_negation for all values; C99_piecewise_maximum is the formula that works."
  },
  {
   "property": "C100",
   "status": "partial",
   "theorems": [
    "Pylbm.Boundary.C100_stencil",
    "Pylbm.Scheme.C100_construction",
    "Pylbm.Scheme.C100_moments",
    "Pylbm.Scheme.C100_collision_partial",
    "Pylbm.Scheme.C100_relative_partial",
    "Pylbm.Scheme.C100_conserved_negation",
    "Pylbm.Scheme.C100_sources_negation",
    "Pylbm.Scheme.C100_relative_negation",
    "Pylbm.Sim.C100_order_partial"
   ],
   "note": "proved for all orders of the velocities, schemes and moments, for runs with walls without relative velocity and with sources which do not use a moment already updated, and for the collision with a relative velocity and parameters 0 of the conserved moments; false for the order of the conserved moments when it is not that of the moments (C36), for coupled sources and for a relative velocity with other parameters of the conserved moments (negations)"
  },
  {
   "property": "C101",
   "status": "proved",
   "theorems": [
    "Pylbm.Sim.C101_rounding",
    "Pylbm.Sim.C101_collision",
    "Pylbm.Sim.C101_populations",
    "Pylbm.Sim.C101_totals",
    "Pylbm.Sim.C101_mass",
    "Pylbm.Sim.C101_conservation",
    "Pylbm.Sim.C101_mass_conservation",
    "Pylbm.Sim.C101_difference",
    "Pylbm.Sim.C101_difference_walls",
    "Pylbm.Sim.C101_energy",
    "Pylbm.Sim.C101_run_exists",
    "Pylbm.Sim.C101_balance",
    "Pylbm.Sim.C101_balance_walls",
    "Pylbm.Sim.C101_rate",
    "Pylbm.Sim.C101_no_source",
    "Pylbm.Sim.C101_relative",
    "Pylbm.Sim.C101_boundary"
   ],
   "note": "C101_conservation, C101_mass_conservation (drift of the totals with rounded operations), C101_balance, C101_balance_walls, C101_rate, C101_no_source, C101_relative (the same with sources, with a relative velocity for the Pull algorithm, which is the one which conserves (C46), and with errors of the boundary values), C101_difference (periodic) and C101_difference_walls (no anti-bounce-back, linear schemes), C101_energy (dissipative schemes of C98), C101_rounding, C101_collision, C101_populations, C101_boundary (size of the disturbances). Overflow and underflow are excluded by the relative error of the statement; the rounding of the time counts as a disturbance."
  },
  {
   "property": "C102",
   "status": "partial",
   "theorems": [
    "Pylbm.Sim.C102_continue",
    "Pylbm.Sim.C102_inittype_partial",
    "Pylbm.Sim.C102_inittype_unit",
    "Pylbm.Sim.C102_lazy_negation",
    "Pylbm.Sim.C102_restart",
    "Pylbm.Sim.C102_inittype_negation",
    "Pylbm.Sim.C102_time_negation"
   ],
   "note": "Proved for all runs when the new simulation receives the populations (init with inittype distributions, or F_halo) or all the moments through m_halo and m2f, and t and nt are assigned. False for inittype moments: the non-conserved moments of the dictionary are replaced by their equilibrium (C102_inittype_partial says exactly where it is the same, C102_inittype_unit: relaxation parameters 1; C102_inittype_negation). Values assigned before the first step of a simulation constructed with initialize=False are lost (C102_lazy_negation). Without assigning t the boundary values start again at time 0 (C102_time_negation)."
  },
  {
   "property": "C103",
   "status": "partial",
   "theorems": [
    "Pylbm.Boundary.C103_stencil",
    "Pylbm.Domain.C103_domain",
    "Pylbm.Scheme.C103_dictionary",
    "Pylbm.Scheme.C103_construction",
    "Pylbm.Scheme.C103_moments",
    "Pylbm.Scheme.C103_collision_partial",
    "Pylbm.Scheme.C103_relative_partial",
    "Pylbm.Scheme.C103_sources_negation",
    "Pylbm.Sim.C103_alone_partial"
   ],
   "note": "Stencil (C103_stencil), scheme (C103_dictionary, C103_construction), domain (C103_domain, the links of a velocity do not depend on the other velocities and on the halo), collision and whole runs with walls, obstacles and any decompositions (C103_alone_partial). Missing because false: coupled sources (C103_sources_negation). With a relative velocity: the Pull algorithm, no sources, relaxation parameters 0 for the conserved moments."
  },
  {
   "property": "C104",
   "status": "partial",
   "theorems": [
    "Pylbm.Scheme.C104_several_partial",
    "Pylbm.Scheme.C104_matrix_negation",
    "Pylbm.Scheme.C104_feq_negation",
    "Pylbm.Scheme.C104_mass_negation"
   ],
   "note": "C104_several_partial: any sequence of constructions, when the dictionaries give polynomials or a matrix where the conserved moments are the first ones. Otherwise the matrix of the user is taken without copy and its rows are swapped in place: the second scheme reads every moved conserved moment with the row of another moment and the matrix of the first scheme is changed (C104_matrix_negation, universal); with feq the relaxation parameters of the second scheme go to the wrong moments (C104_feq_negation); the second simulation does not keep the mass (C104_mass_negation)."
  },
  {
   "property": "C105",
   "status": "partial",
   "theorems": [
    "Pylbm.Boundary.C105_changes_partial",
    "Pylbm.Boundary.C105_once",
    "Pylbm.Boundary.C105_time_negation",
    "Pylbm.Boundary.C105_first_negation",
    "Pylbm.Boundary.C105_walls_negation",
    "Pylbm.Boundary.C105_read_negation",
    "Pylbm.Symbolic.C105_split",
    "Pylbm.Symbolic.C105_matrix_partial",
    "Pylbm.Symbolic.C105_order_negation"
   ],
   "note": "Formulas prepared with recursive_sub: full, for all splits of the parameters. Matrices: when no definition uses an earlier entry of the dictionary, with the universal negation otherwise. Runs: all sequences of operations and changes, when the time step and the walls without time_bc do not depend on the changed parameters (full when the values are given once); universal negations for the time step, these walls and the moments already read."
  },
  {
   "property": "C106",
   "status": "partial",
   "theorems": [
    "Pylbm.Parallel.C106_own",
    "Pylbm.Parallel.C106_removed",
    "Pylbm.Parallel.C106_prepared",
    "Pylbm.Parallel.C106_mkdir_negation",
    "Pylbm.Parallel.C106_part_negation",
    "Pylbm.Parallel.C106_barrier_partial"
   ],
   "note": "Own (temporary) directories and prepared directories: proved for all schedules. A common directory in which several processes generate: false (two universal negations), right for all schedules with a barrier before the build and the import when the directory exists and the texts are the same. Atomicity of the system calls and of the build is assumed."
  },
  {
   "property": "C107",
   "status": "partial",
   "theorems": [
    "Pylbm.Sim.C107_bounce_back",
    "Pylbm.Sim.C107_interpolated",
    "Pylbm.Sim.C107_anti_bounce_back",
    "Pylbm.Sim.C107_interpolated_anti",
    "Pylbm.Sim.C107_neumann",
    "Pylbm.Sim.C107_steady",
    "Pylbm.Sim.C107_flow",
    "Pylbm.Sim.C107_shear",
    "Pylbm.Sim.C107_conduction",
    "Pylbm.Sim.C107_couette",
    "Pylbm.Sim.C107_corner_negation"
   ],
   "note": "Any exact flow, nonlinear, with sources and walls depending on time (C107_flow); which methods return an affine flow, link by link, as equivalences (C107_bounce_back, C107_interpolated, C107_anti_bounce_back, C107_interpolated_anti, C107_neumann); the steady flows of linear schemes (C107_steady); runs (C107_shear, C107_conduction, C107_couette). Missing because false: interpolated bounce-back beyond the distance 1/2 on moving walls and interpolated anti bounce-back except at 1/2 (the equivalences), channels whose periodic axis comes before the axis of the walls (C107_corner_negation)."
  },
  {
   "property": "C108",
   "status": "proved",
   "theorems": [
    "Pylbm.Sim.C108_backwards",
    "Pylbm.Sim.C108_periodic",
    "Pylbm.Sim.C108_moments",
    "Pylbm.Sim.C108_dissipation",
    "Pylbm.Sim.C108_interpolated_negation"
   ],
   "note": "Walls with bounce-back and anti bounce-back, periodic domains, nonlinear schemes; the interpolated methods are not reversible (negation)."
  },
  {
   "property": "C109",
   "status": "partial",
   "theorems": [
    "Pylbm.Scheme.C109_polynomials",
    "Pylbm.Scheme.C109_collision",
    "Pylbm.Scheme.C109_equilibrium",
    "Pylbm.Scheme.C109_only",
    "Pylbm.Scheme.C109_relative_partial",
    "Pylbm.Scheme.C109_source_negation",
    "Pylbm.Sim.C109_runs",
    "Pylbm.Sim.C109_relative_runs_partial"
   ],
   "note": "C109_runs: whole simulations in two bases of moments, C109_only: the condition on the relaxation parameters is necessary. False with coupled source terms (C109_source_negation: the result depends on the order of the moments). Relative velocity: C109_relative_partial, C109_relative_runs_partial for the Pull algorithm; false for the Base algorithm (C46_base_negation)."
  },
  {
   "property": "C110",
   "status": "proved",
   "theorems": [
    "Pylbm.Sim.C110_collision",
    "Pylbm.Sim.C110_scheme",
    "Pylbm.Sim.C110_only",
    "Pylbm.Sim.C110_order_periodic",
    "Pylbm.Sim.C110_distance_periodic",
    "Pylbm.Sim.C110_variation",
    "Pylbm.Sim.C110_density",
    "Pylbm.Sim.C110_order",
    "Pylbm.Sim.C110_distance",
    "Pylbm.Sim.C110_anti_negation",
    "Pylbm.Sim.C110_interpolated_negation"
   ],
   "note": "Order and distance of two runs with a monotone scheme: periodic domains (C110_order_periodic, C110_distance_periodic, C110_variation, C110_density) and domains with walls (C110_order, C110_distance; every link to a wall is in the table and reads fluid cells, as in C78). C110_only: schemes with equilibria which are not monotone increase some distance. The negations show the boundary methods to which the claim does not extend (anti bounce-back for the order, interpolated bounce-back for the distance)."
  },
  {
   "property": "C111",
   "status": "proved",
   "theorems": [
    "Pylbm.Sim.C111_steady",
    "Pylbm.Sim.C111_bounce_back",
    "Pylbm.Sim.C111_even_negation",
    "Pylbm.Sim.C111_two_rates",
    "Pylbm.Sim.C111_poiseuille",
    "Pylbm.Sim.C111_d2q9",
    "Pylbm.Sim.C111_d2q9_channel"
   ],
   "note": "Linear equilibria; schemes with two relaxation parameters and D2Q9 as cases. The quadratic equilibria of the demos: C112."
  },
  {
   "property": "C112",
   "status": "proved",
   "theorems": [
    "Pylbm.Sim.C112_line",
    "Pylbm.Sim.C112_reduced",
    "Pylbm.Sim.C112_closed_iff",
    "Pylbm.Sim.C112_d2q9_channel",
    "Pylbm.Sim.C112_d2q9_d1q3"
   ],
   "note": "Boxes without element; NeumannX/Y/Z left out. C112_line is for any scheme, C112_reduced for any two, the others are D2Q9 and D1Q3."
  },
  {
   "property": "C113",
   "status": "partial",
   "theorems": [
    "Pylbm.Domain.C113_domain",
    "Pylbm.Boundary.C113_boundary_partial",
    "Pylbm.Boundary.C113_same_order",
    "Pylbm.Boundary.C113_outlet",
    "Pylbm.Sim.C113_runs_partial",
    "Pylbm.Sim.C113_one_cell",
    "Pylbm.Sim.C113_negation",
    "Pylbm.Sim.C113_outlet_negation"
   ],
   "note": "Proved: the domain is only renamed; all methods when the order of the labels is kept; any renaming when no method reads what a method writes (in particular BounceBack, AntiBounceBack, Neumann); the condition of the outlet. Missing: NeumannX/Y/Z and interpolated methods next to other labels with a renaming which changes the order: false, see C113_negation and C113_outlet_negation."
  },
  {
   "property": "C114",
   "status": "partial",
   "theorems": [
    "Pylbm.Sim.C114_diagonal_negation",
    "Pylbm.Sim.C114_images",
    "Pylbm.Sim.C114_restriction",
    "Pylbm.Sim.C114_collision"
   ],
   "note": "Velocities along the axes by at most one cell, boxes without element, walls which impose nothing. With diagonal velocities bounce-back is not a mirror (C114_diagonal_negation: whatever the values behind the walls). Missing: longer velocities, walls which impose values, elements."
  },
  {
   "property": "C115",
   "status": "proved",
   "theorems": [
    "Pylbm.Sim.C115_sublattices",
    "Pylbm.Sim.C115_totals",
    "Pylbm.Sim.C115_alternating",
    "Pylbm.Sim.C115_only"
   ],
   "note": "Alternating sums along an axis (C115_alternating) and its converse (C115_only), totals over the colours of any additive periodic colouring (C115_totals), independence of the colours whatever the collision (C115_sublattices). Periodic boxes."
  },
  {
   "property": "C116",
   "status": "proved",
   "theorems": [
    "Pylbm.Sim.C116_collision",
    "Pylbm.Sim.C116_shift",
    "Pylbm.Sim.C116_rest",
    "Pylbm.Sim.C116_initial",
    "Pylbm.Sim.C116_imposed",
    "Pylbm.Sim.C116_compressible_negation"
   ],
   "note": "C116_shift for any collision and walls, C116_collision for the schemes, C116_rest for walls which need not be changed, C116_initial and C116_imposed for the construction of the values; C116_compressible_negation: no state which changes the density can be added with the equilibrium ρ/3 + q²/ρ."
  },
  {
   "property": "C117",
   "status": "proved",
   "theorems": [
    "Pylbm.Cli.C117_asked",
    "Pylbm.Cli.C117_refused",
    "Pylbm.Cli.C117_abbreviation_negation",
    "Pylbm.Cli.C117_help_negation",
    "Pylbm.Cli.C117_glued_negation"
   ],
   "note": "parse_known_args of argparse (Python 3.11) is followed for the options of pylbm. Numbers are decimal numerals. Negations: -n and -np, -h and --help, numbers glued to the option."
  },
  {
   "property": "C118",
   "status": "proved",
   "theorems": [
    "Pylbm.Mpi.C118_default",
    "Pylbm.Mpi.C118_asked",
    "Pylbm.Mpi.C118_grid",
    "Pylbm.Mpi.C118_failures",
    "Pylbm.Mpi.C118_unused_negation",
    "Pylbm.Mpi.C118_ones_negation"
   ],
   "note": "Compute_dims, Create_cart and Get_coords as in the MPI standard (hypothesis Factors on Compute_dims). Equivalence for the command lines with numbers, exact set of the processes which fail, two negations."
  },
  {
   "property": "C119",
   "status": "partial",
   "theorems": [
    "Pylbm.Views.C119_views",
    "Pylbm.Views.C119_outside",
    "Pylbm.Views.C119_rows_negation",
    "Pylbm.Views.C119_row_negation"
   ],
   "note": "Proved for two integers, and for one integer in figures of one column (C119_views, C119_outside); false with one integer in figures of several columns (C119_rows_negation) and of one row (C119_row_negation). Slices are not modelled."
  },
  {
   "property": "C120",
   "status": "proved",
   "theorems": [
    "Pylbm.Sim.C120_tiles",
    "Pylbm.Stability.C120_multiples",
    "Pylbm.Stability.C120_divisors",
    "Pylbm.Stability.C120_sampling_negation"
   ],
   "note": "Copies for any collision and any two decompositions; verdict for linear equilibria without source; the exact test for the bounded direction (as in C63_stable_partial); negation for each number of wave vectors"
  },
  {
   "property": "C121",
   "status": "proved",
   "theorems": [
    "Pylbm.Sim.C121_absorbing",
    "Pylbm.Sim.C121_flow",
    "Pylbm.Sim.C121_affine",
    "Pylbm.Sim.C121_closed",
    "Pylbm.Sim.C121_cycle",
    "Pylbm.Sim.C121_forget",
    "Pylbm.Sim.C121_steady",
    "Pylbm.Sim.C121_mean",
    "Pylbm.Sim.C121_negation",
    "Pylbm.Sim.C121_approach"
   ],
   "note": "Sufficiency: C121_approach and C121_mean (a geometric rate, over ℝ). Necessity: C121_negation. Closed boxes: C121_closed, from the mirrors of C114; the value 0 on walls: C121_absorbing; any values on walls: C121_forget (two runs, linear equilibrium), C121_steady (existence of a steady state and convergence to it), C121_cycle (values periodic in time), C121_flow (convergence to the exact flows of C107) and C121_affine (convergence of the conserved quantity to an affine field). The hypotheses `Damped` are those of C98 with strict relaxation parameters and no zero population at equilibrium; `Connects` is a property of velocities and sizes only. Cases: D1Q2 on 7 and on 8 cells over two processes, D1Q3 in a tube with bounce-back and with anti bounce-back over two processes, steady conduction."
  },
  {
   "property": "C122",
   "status": "partial",
   "theorems": [
    "Pylbm.Hdf5.C122_series_partial",
    "Pylbm.Hdf5.C122_dot_negation",
    "Pylbm.Hdf5.C122_number_negation",
    "Pylbm.Hdf5.C122_default_path_negation",
    "Pylbm.Hdf5.C122_reference"
   ],
   "note": "C122_series_partial for plain names with time steps; false in the code for names with a dot (C122_dot_negation), for a name which ends like a time step (C122_number_negation), for the default path (C122_default_path_negation) and for the references of names with a slash (C122_reference is the equivalence)."
  },
  {
   "property": "C123",
   "status": "partial",
   "theorems": [
    "Pylbm.Stability.C123_box",
    "Pylbm.Stability.C123_dimension_negation",
    "Pylbm.Stability.C123_multiples",
    "Pylbm.Stability.C123_more_negation"
   ],
   "note": "True in dimensions 1 and 2: C123_box. False in dimension 3, for all schemes (C123_dimension_negation). An instability is kept when the number of points in each direction is multiplied (C123_multiples), not for all larger numbers (C123_more_negation). Not modelled: rounding."
  }
 ]
}
