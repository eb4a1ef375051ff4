{"id": "C01", "title": "1D velocity numbering is a bijection", "statement": "Building a 1D velocity from its number and reading its coordinate, then building a velocity from that coordinate, gives back the number; conversely every integer coordinate is recovered from its number. So the numbering is a bijection between the natural numbers and the integers.", "quantifier": "all natural numbers num and all integers vx", "why_tests_cant": "infinitely many numbers; the repo's test samples random num < 1000", "anchors": ["pylbm/stencil.py:Velocity._set_num", "pylbm/stencil.py:Velocity._set_coord"]}
{"id": "C02", "title": "2D velocity numbering is a bijection", "statement": "Building a 2D velocity from its number and reading (vx, vy), then building a velocity from these coordinates, gives back the number; conversely every integer pair is recovered from its number. The numbering is a bijection between the natural numbers and pairs of integers.", "quantifier": "all natural numbers num and all integer pairs (vx, vy)", "why_tests_cant": "infinite domain, table driven code with eight octants and a square root; samples can only hit some shells", "anchors": ["pylbm/stencil.py:Velocity._R2", "pylbm/stencil.py:Velocity._set_num", "pylbm/stencil.py:Velocity._set_coord"]}
{"id": "C03", "title": "3D velocity numbering is a bijection on its range", "statement": "For 3D velocities the number obtained from coordinates and the coordinates obtained from a number are inverse of each other, on the cube of coordinates of absolute value below the enumeration bound (99) and the numbers below 199^3; outside of that range no number (resp. coordinate) is assigned.", "quantifier": "all numbers and all integer triples", "why_tests_cant": "almost eight million triples, produced by nested loops over permutations and sign patterns with repeated entries", "anchors": ["pylbm/stencil.py:Velocity._set_num", "pylbm/stencil.py:Velocity._set_coord", "pylbm/stencil.py:permute_in_place"]}
{"id": "C04", "title": "Permutation generator yields every distinct arrangement exactly once, in lexicographic order", "statement": "permute_in_place yields exactly the distinct rearrangements of its input, each one once, in increasing lexicographic order, starting from the sorted list and leaving the list sorted at the end, also when the input has equal entries.", "quantifier": "all finite lists over a total order, with or without repetitions", "why_tests_cant": "factorially many outputs, arbitrary multiplicities; the loop indices use negative Python indices", "anchors": ["pylbm/stencil.py:permute_in_place"]}
{"id": "C05", "title": "Symmetric velocities", "statement": "Velocity.get_symmetric(axis) negates exactly the components it documents (all of them without axis, all but the axis component otherwise), is an involution also on the velocity number, and raises an error exactly when the axis is negative or not below the dimension.", "quantifier": "all dimensions 1 to 3, all integer coordinates, all axes", "why_tests_cant": "infinite domain; the test samples random velocities", "anchors": ["pylbm/stencil.py:Velocity.get_symmetric"]}
{"id": "C06", "title": "Stencil index tables are coherent", "statement": "For every list of elementary schemes: the unique velocity numbers are strictly increasing and are exactly the numbers requested; the velocities of scheme k are, in order, those requested; nv_ptr gives the start of each scheme in the concatenation; looking up the number of any velocity through num2index / unum2index leads back to that velocity.", "quantifier": "all non empty lists of schemes with arbitrary non negative velocity numbers", "why_tests_cant": "unbounded number of schemes and velocity lists, with duplicates across schemes and in any order", "anchors": ["pylbm/stencil.py:Stencil.__init__"]}
{"id": "C07", "title": "Symmetric index of a velocity stays in its scheme and is involutive", "statement": "When every velocity of every scheme has its opposite in the same scheme (and a scheme has no repeated velocity), Stencil.get_symmetric returns for each global index an index of the same scheme whose velocity is the opposite one, and applying it twice is the identity; when an opposite is missing in the scheme the call raises.", "quantifier": "all stencils and all global velocity indices, optional axis", "why_tests_cant": "unbounded stencils; correctness depends on the offset arithmetic of all schemes", "anchors": ["pylbm/stencil.py:Stencil.get_symmetric"]}
{"id": "C08", "title": "is_symmetric decides symmetry of the whole stencil", "statement": "Stencil.is_symmetric returns True exactly when every velocity of every elementary scheme has its opposite in the same scheme.", "quantifier": "all stencils", "why_tests_cant": "the verdict is overwritten by each scheme, one needs several schemes of which only an early one is asymmetric", "anchors": ["pylbm/stencil.py:Stencil.is_symmetric"]}
{"id": "C09", "title": "Halo width bounds the reach of every velocity", "statement": "The number of halo layers (vmax) is at least the absolute value of every component of every velocity, so that every streaming read from an owned cell stays inside the allocated array.", "quantifier": "all stencils and all cells of an array", "why_tests_cant": "depends on the sign of the extremal velocity, all stencils", "anchors": ["pylbm/stencil.py:Stencil.vmax", "pylbm/domain.py:Domain.get_bounds_halo", "pylbm/container.py:BaseContainer"]}
{"id": "C10", "title": "1D region splitting is an exact balanced partition", "statement": "The region boundaries for n points on p processes start at 0, end at n, are non decreasing, so that each of the n points belongs to exactly one region, region sizes differ by at most one and the larger regions come first.", "quantifier": "all n >= 0 and p >= 1", "why_tests_cant": "infinite family, arithmetic with remainder", "anchors": ["pylbm/mpi_topology.py:MpiTopology.get_region_indices_"]}
{"id": "C11", "title": "Every global cell is owned by exactly one process", "statement": "With get_region on a Cartesian process grid, each cell of the global nx x ny x nz grid is in the region of exactly one process, in any dimension.", "quantifier": "all grid sizes, all process grids, all dimensions", "why_tests_cant": "quantifies over all decompositions", "anchors": ["pylbm/mpi_topology.py:MpiTopology.get_region", "pylbm/mpi_topology.py:MpiTopology.get_region_indices"]}
{"id": "C12", "title": "get_directions lists all directions once", "statement": "For dimension 1, 2, 3 the rows of get_directions are exactly the vectors with components in {-1,0,1}, without repetition and in lexicographic order; the i-th row is the base-3 expansion of i.", "quantifier": "the three dimensions and all vectors", "why_tests_cant": "built by numpy repeats; only the 1D and 2D arrays are shown in the docstring", "anchors": ["pylbm/mpi_topology.py:get_directions"]}
{"id": "C13", "title": "Storage order is transparent", "statement": "For every permutation sorder, a value written at logical position (k, x, y, z) is read back at the same logical position and at no other one; the underlying memory offset is in bounds and injective; and the index list which generated code uses (set_order) addresses the same memory cell as the Python view.", "quantifier": "all dimensions, all shapes, all permutations sorder, all positions", "why_tests_cant": "all permutations and shapes; Python side uses transpose, generated code uses argsort: two different conventions must agree", "anchors": ["pylbm/storage.py:Array.__init__", "pylbm/symbolic.py:set_order", "pylbm/symbolic.py:indexed"]}
{"id": "C14", "title": "Generated space loops visit exactly the intended cells", "statement": "For every storage order, the loops of a generated kernel read and write exactly the intended cells (all the cells, or all the interior cells) of an array, each once.", "quantifier": "all storage orders and all grid shapes", "why_tests_cant": "non square shapes and permuted spatial axes are needed at the same time", "anchors": ["pylbm/symbolic.py:space_idx", "pylbm/symbolic.py:indexed", "pylbm/algorithm/base.py:BaseAlgorithm._get_space_idx_full"]}
{"id": "C15", "title": "Halo update is the periodic extension", "statement": "After Array.update on every process, each halo cell (faces, edges and corners) of each process holds the value of the cell of the global periodic array at the same position, and owned cells are unchanged, for any process grid and any decomposition in which each local size is at least the halo width.", "quantifier": "all dimensions, process grids (also one or two processes in a direction), sizes, halo widths and contents", "why_tests_cant": "needs MPI runs with all process counts; corners are filled by a two step relay", "anchors": ["pylbm/storage.py:Array.update", "pylbm/storage.py:Array._set_subarray"]}
{"id": "C16", "title": "Halo update does not depend on the message schedule and cannot deadlock", "statement": "For every interleaving of the processes and of the message deliveries, every complete execution of Array.update ends in the same state (the periodic extension), and no reachable incomplete state is stuck; each receive is matched by the message of the right side even if both neighbours are the same process.", "quantifier": "all interleavings of sends, receives and phase changes on all process grids", "why_tests_cant": "exponentially many schedules", "anchors": ["pylbm/storage.py:Array.update", "pylbm/storage.py:Array._set_subarray"]}
{"id": "C17", "title": "Interior view is exactly the owned cells", "statement": "The interior accessors (F, m, Array._in) return exactly the cells at distance at least vmax from the array border, for every halo width.", "quantifier": "all shapes and halo widths (also zero)", "why_tests_cant": "the width zero in one direction is the corner case of Python negative slices", "anchors": ["pylbm/storage.py:Array._in", "pylbm/simulation.py:Simulation.F", "pylbm/simulation.py:Simulation.m"]}
{"id": "C18", "title": "Coordinates are those of the global grid", "statement": "On each process, coordinates with halo are equally spaced by dx, the interior coordinates are the cell centres of the owned cells, and the coordinates of one process are the restriction of the coordinates of a run on a single process.", "quantifier": "all boxes, steps, halo widths, process grids", "why_tests_cant": "all decompositions, boundary processes included", "anchors": ["pylbm/domain.py:Domain.create_coords"]}
{"id": "C19", "title": "Only boxes compatible with the space step are accepted", "statement": "Domain creation succeeds only if each side of the box is a positive integer multiple of the space step (up to rounding), independently of the length unit.", "quantifier": "all boxes and space steps", "why_tests_cant": "depends on the magnitude of dx: tests use small dx", "anchors": ["pylbm/domain.py:Domain.create_coords"]}
{"id": "C20", "title": "Links cut by the faces of the box get first-hit distance, label and normal", "statement": "For each interior cell and each velocity, the distance is the smallest fraction of the step at which the link crosses a non-interface face of the box (999 if it crosses none), the flag is the label of that face (lowest axis on ties) and the normal is the outward unit normal of that face.", "quantifier": "all dimensions, box sizes, velocities, labels and cells", "why_tests_cant": "multi-speed velocities which cross several faces, all sizes", "anchors": ["pylbm/domain.py:Domain.__add_init"]}
{"id": "C21", "title": "Fluid/solid map: the last element containing a point decides", "statement": "After adding a list of elements, an interior cell is marked solid exactly when the last element in the list that contains its centre is solid (fluid when there is none), and halo cells stay outside; this holds for every element whose bounding box contains it.", "quantifier": "all lists of elements, all grids and halo widths", "why_tests_cant": "slices with truncated, possibly negative, indices; arbitrary element sequences", "anchors": ["pylbm/domain.py:Domain.__add_elem", "pylbm/domain.py:Domain.__init__"]}
{"id": "C22", "title": "clean leaves no boundary link on solid cells", "statement": "After Domain.clean every solid cell has distance 999 and flag 999 for all velocities, the other cells are unchanged, and a second clean changes nothing.", "quantifier": "all in_or_out, distance, and flag arrays", "why_tests_cant": "all arrays", "anchors": ["pylbm/domain.py:Domain.clean"]}
{"id": "C23", "title": "Flagged links go from fluid to outside, with a fraction in (0,1]", "statement": "When the domain is built, each velocity flagged on an interior fluid cell leads to a cell that is outside (solid or out of the box) and carries a distance in (0,1].", "quantifier": "all geometries made of elements whose distance function returns at most 1 on request, all cells and velocities", "why_tests_cant": "depends on the whole sequence of added and removed elements", "anchors": ["pylbm/domain.py:Domain.__add_elem", "pylbm/domain.py:Domain.__add_init"]}
{"id": "C24", "title": "A link from outside to inside an element is always seen", "statement": "If a point is outside a circle, ellipse, triangle or parallelogram (sphere, ellipsoid) and the point shifted by v is inside, the element's distance in direction v with dmax = 1 is in (0,1] and the hit point is on the boundary.", "quantifier": "all element parameters, all points and directions (exact real arithmetic)", "why_tests_cant": "continuum of points and directions", "anchors": ["pylbm/elements/utils.py:distance_lines", "pylbm/elements/utils.py:distance_ellipse", "pylbm/elements/utils.py:distance_ellipsoid"]}
{"id": "C25", "title": "Line intersection is correct", "statement": "intersection_two_lines returns None exactly for parallel directions and otherwise the unique parameters at which the two lines meet.", "quantifier": "all points and directions of the plane", "why_tests_cant": "continuum", "anchors": ["pylbm/elements/utils.py:intersection_two_lines"]}
{"id": "C26", "title": "distance_lines returns the first edge hit", "statement": "The distance of a point to a polygon in direction v is the smallest positive parameter not exceeding dmax at which the ray meets an edge, -1 when there is none; the label is that of an edge hit at this parameter and the normal has unit length, is orthogonal to that edge and points against v.", "quantifier": "all points, directions, edge lists", "why_tests_cant": "continuum and all edge lists", "anchors": ["pylbm/elements/utils.py:distance_lines"]}
{"id": "C27", "title": "distance_ellipse and distance_ellipsoid return the first crossing", "statement": "The distance of a point to an ellipse (circle, ellipsoid, sphere) in direction v is the smallest positive parameter not exceeding dmax at which the ray meets the curve (surface) and -1 when there is none.", "quantifier": "all points, directions and axes", "why_tests_cant": "continuum; degenerate discriminants, points on the curve", "anchors": ["pylbm/elements/utils.py:distance_ellipse", "pylbm/elements/utils.py:distance_ellipsoid"]}
{"id": "C28", "title": "point_inside is membership in the described shape", "statement": "point_inside is true exactly for the points centre + a v1 + b v2 (+ c v3) with the parameter domain of the shape (unit disc/ball, unit square, unit simplex), boundary included.", "quantifier": "all shapes and points", "why_tests_cant": "continuum", "anchors": ["pylbm/elements/circle.py:Circle.point_inside", "pylbm/elements/ellipse.py:Ellipse.point_inside", "pylbm/elements/triangle.py:Triangle.point_inside", "pylbm/elements/parallelogram.py:Parallelogram.point_inside", "pylbm/elements/ellipsoid.py:Ellipsoid.point_inside", "pylbm/elements/sphere.py:Sphere.point_inside"]}
{"id": "C29", "title": "get_bounds encloses the element", "statement": "Every point for which point_inside is true lies in the box returned by get_bounds, for all elements (circle, ellipse, triangle, parallelogram, sphere, ellipsoid, cylinders).", "quantifier": "all elements and points", "why_tests_cant": "continuum; the repo's tests of the cylinder bounds are commented out", "anchors": ["pylbm/elements/base.py", "pylbm/elements/cylinder.py:Cylinder.get_bounds", "pylbm/elements/circle.py:Circle.get_bounds", "pylbm/elements/ellipse.py:Ellipse.get_bounds"]}
{"id": "C30", "title": "Each boundary link has exactly one ghost value and it is written once", "statement": "The ghost positions (velocity, cell) written by the boundary methods are in bijection with the flagged links (velocity, fluid cell); two labels never write the same position, so the order of the labels does not matter for methods reading fluid cells.", "quantifier": "all flag arrays, stencils and label assignments", "why_tests_cant": "all geometries", "anchors": ["pylbm/boundary.py:BoundaryVelocity", "pylbm/boundary.py:BounceBack.set_iload", "pylbm/simulation.py:Simulation.boundary_condition"]}
{"id": "C31", "title": "Boundary values are evaluated at the wall", "statement": "The point at which user boundary functions are evaluated for a link is the point where the link crosses the wall: inner point + distance * velocity * dx; for a face of the box this point lies on the face.", "quantifier": "all links, distances, velocities, space steps", "why_tests_cant": "continuum; sign conventions of outward and inward velocities", "anchors": ["pylbm/boundary.py:BoundaryMethod.prepare_rhs"]}
{"id": "C32", "title": "Bounce-back conserves mass on any geometry", "statement": "On any finite fluid region with a symmetric stencil, filling the ghost values by homogeneous bounce-back and then streaming leaves the sum of all distribution values over the fluid cells unchanged; with an inhomogeneous term the sum changes by exactly the sum of those terms.", "quantifier": "all finite fluid regions in any dimension, all symmetric stencils, all contents", "why_tests_cant": "all geometries and contents", "anchors": ["pylbm/boundary.py:BounceBack", "pylbm/algorithm/base.py:BaseAlgorithm.transport_local"]}
{"id": "C33", "title": "Boundary conditions preserve the uniform equilibrium they impose", "statement": "If the distribution is everywhere the equilibrium of the imposed wall state, then applying bounce-back, anti-bounce-back, Neumann or the interpolated (Bouzidi) variants writes the same equilibrium in the ghost cells.", "quantifier": "all equilibria, wall distances and links", "why_tests_cant": "continuum of distances and equilibria; both branches of the interpolation", "anchors": ["pylbm/boundary.py:BounceBack.set_rhs", "pylbm/boundary.py:AntiBounceBack.set_rhs", "pylbm/boundary.py:BouzidiBounceBack.set_iload", "pylbm/boundary.py:BouzidiAntiBounceBack.set_rhs", "pylbm/boundary.py:Neumann"]}
{"id": "C34", "title": "Bouzidi interpolation is consistent", "statement": "For every distance in (0,1] the interpolation weights are in [0,1] and sum to 1, both branches agree at distance 1/2 where the method coincides with plain bounce-back, and the interpolated value is the linear interpolation of the post-collision population at the departure point.", "quantifier": "all distances in (0,1], all contents", "why_tests_cant": "continuum", "anchors": ["pylbm/boundary.py:BouzidiBounceBack.set_iload", "pylbm/boundary.py:BouzidiBounceBack.generate"]}
{"id": "C35", "title": "Interpolated boundary updates do not depend on the order of the links", "statement": "The result of a Bouzidi boundary update is the same for every order in which its links are processed.", "quantifier": "all link sets, contents, and permutations of the links", "why_tests_cant": "only narrow gaps make links read ghost values of other links; all permutations", "anchors": ["pylbm/boundary.py:BouzidiBounceBack.generate", "pylbm/boundary.py:BouzidiAntiBounceBack.generate"]}
{"id": "C36", "title": "Conserved moments are moved to the front", "statement": "After construction of the scheme, the rows of the moment matrix (and the relaxation parameters and equilibria) are a permutation of the user's, whose first rows are the rows of the conserved moments in the user's order; the collision operator on distributions is not changed by the reordering.", "quantifier": "all numbers of moments, all choices and orders of conserved moments", "why_tests_cant": "all injections of conserved moments", "anchors": ["pylbm/scheme.py:Scheme._permute_consm_in_front"]}
{"id": "C37", "title": "f2m and m2f are inverse of each other", "statement": "With M invertible, m2f after f2m is the identity on distributions and f2m after m2f is the identity on moments, for multi-scheme block matrices and after reordering of the conserved moments.", "quantifier": "all invertible moment matrices, all contents, all cells", "why_tests_cant": "all matrices and contents", "anchors": ["pylbm/algorithm/base.py:BaseAlgorithm.f2m", "pylbm/algorithm/base.py:BaseAlgorithm.m2f", "pylbm/scheme.py:Scheme._create_moments_matrices"]}
{"id": "C38", "title": "Relaxation conserves conserved moments and fixes equilibrium", "statement": "If the equilibrium of the conserved moments are themselves, relaxation leaves the conserved moments unchanged for all relaxation parameters, equilibrium states are fixed points, parameter 1 projects on equilibrium, and equilibrium is idempotent.", "quantifier": "all equilibrium functions, relaxation parameters and moments", "why_tests_cant": "all functions; generated code assigns moments one after the other in place", "anchors": ["pylbm/algorithm/base.py:BaseAlgorithm.relaxation", "pylbm/algorithm/base.py:BaseAlgorithm.equilibrium"]}
{"id": "C39", "title": "One time step is the composition of its documented phases", "statement": "one_time_step gives, on all interior cells, the same distributions as successively calling boundary_condition, transport, f2m, relaxation, m2f (without source terms), whatever the algorithm (Base or Pull), the settings (m_local, split, check_isfluid on fluid cells) and the backend.", "quantifier": "all schemes, contents, shapes, settings, backends", "why_tests_cant": "all contents; aliasing of the two distribution arrays differs between backends", "anchors": ["pylbm/algorithm/base.py:BaseAlgorithm.one_time_step", "pylbm/algorithm/pull.py:PullAlgorithm", "pylbm/simulation.py:Simulation.one_time_step", "pylbm/container.py"]}
{"id": "C40", "title": "Cells can be processed in any order", "statement": "The result of the fused per-cell kernel does not depend on the order in which the cells are processed (nested loops in any storage order, parallel threads), because it reads one distribution array and writes another one.", "quantifier": "all orders of the cells, all contents", "why_tests_cant": "factorially many orders", "anchors": ["pylbm/algorithm/base.py:BaseAlgorithm.one_time_step", "pylbm/container.py:CythonContainer", "pylbm/simulation.py:Simulation.one_time_step"]}
{"id": "C41", "title": "Global conservation over any number of time steps", "statement": "On a fully periodic domain, each linear conserved moment summed over the domain is the same after any number of time steps.", "quantifier": "all schemes with conserved moments, all contents, all grid sizes, all step counts", "why_tests_cant": "all histories; exact arithmetic", "anchors": ["pylbm/simulation.py:Simulation.one_time_step", "pylbm/algorithm/pull.py:PullAlgorithm"]}
{"id": "C42", "title": "A decomposed run equals the single process run", "statement": "For any process grid, after any number of time steps the interior values of each process are the values of the single process run on the owned cells.", "quantifier": "all process grids, local sizes, contents, numbers of steps, collision operators", "why_tests_cant": "all decompositions and step counts", "anchors": ["pylbm/simulation.py:Simulation.one_time_step", "pylbm/storage.py:Array.update", "pylbm/domain.py:Domain.create_coords"]}
{"id": "C43", "title": "Time and step counters", "statement": "After n calls to one_time_step, nt = n and t = n dt with dt = dx / la, and the arrays F / Fnew have been exchanged n times so that F holds the newest values.", "quantifier": "all n and all interleavings with reads and writes of F and m", "why_tests_cant": "all histories", "anchors": ["pylbm/simulation.py:Simulation.one_time_step", "pylbm/simulation.py:Simulation.dt"]}
{"id": "C44", "title": "Reading m gives the moments of the current F", "statement": "Whatever the sequence of public operations on a simulation, reading m[i] gives the moments of the current distributions, unless the user has written m since the last change of F.", "quantifier": "all sequences of API operations", "why_tests_cant": "all histories; lazily recomputed cache with a dirty flag", "anchors": ["pylbm/simulation.py:Simulation.m", "pylbm/simulation.py:Simulation.m_halo", "pylbm/simulation.py:Simulation.F_halo", "pylbm/simulation.py:Simulation.one_time_step"]}
{"id": "C45", "title": "Source terms are integrated by explicit Euler half steps", "statement": "In a time step each moment with a source term S gets m + dt/2 S(m) computed from the moments at the beginning of the half step, before and after relaxation, and other moments are unchanged by the source.", "quantifier": "all source expressions, all moments", "why_tests_cant": "needs several coupled sources; generated code assigns in place sequentially", "anchors": ["pylbm/algorithm/base.py:BaseAlgorithm.source_term_local", "pylbm/algorithm/ode.py:euler"]}
{"id": "C46", "title": "Relative velocity schemes conserve the conserved moments", "statement": "With a relative velocity, one collision leaves the absolute conserved moments unchanged for both algorithms, and is the relaxation of the moments seen from the relative velocity towards the equilibrium seen from this velocity, whether the moments are given by polynomials or by a matrix.", "quantifier": "all relative velocities, moment matrices, relaxation parameters, contents", "why_tests_cant": "continuum; two algorithms differ in a restore step", "anchors": ["pylbm/algorithm/base.py:BaseAlgorithm.restore_conserved_moments", "pylbm/algorithm/pull.py:PullAlgorithm.one_time_step_local", "pylbm/scheme.py:Scheme._create_moments_matrices"]}
{"id": "C47", "title": "Parameter substitution is complete", "statement": "recursive_sub replaces every parameter by its value as long as the definitions are acyclic: no parameter name is left in the result, and it equals the value given by the final values of the parameters.", "quantifier": "all expressions and acyclic parameter dictionaries, in any order", "why_tests_cant": "all dependency graphs", "anchors": ["pylbm/symbolic.py:recursive_sub"]}
{"id": "C48", "title": "Characteristic polynomial computed by the stability analysis", "statement": "The coefficients which algo_cohn_schur computes by traces are those of the characteristic polynomial of the amplification matrix.", "quantifier": "all square complex matrices of all sizes", "why_tests_cant": "all matrices", "anchors": ["pylbm/analysis/stability.py:algo_cohn_schur"]}
{"id": "C49", "title": "Schur test is exact", "statement": "is_S returns True exactly when all the roots of the polynomial have modulus < 1.", "quantifier": "all complex polynomials of all degrees with non-zero leading coefficient", "why_tests_cant": "continuum of polynomials", "anchors": ["pylbm/analysis/stability.py:is_S", "pylbm/analysis/stability.py:operator_star", "pylbm/analysis/stability.py:operator_circ"]}
{"id": "C50", "title": "von Neumann tests", "statement": "is_svN (resp. is_vN) returns True when the roots are in the closed unit disc with simple roots on the circle (resp. in the closed unit disc), and only then up to the tolerance TPV.", "quantifier": "all complex polynomials of all degrees", "why_tests_cant": "continuum; tolerance", "anchors": ["pylbm/analysis/stability.py:is_svN", "pylbm/analysis/stability.py:is_vN"]}
{"id": "C51", "title": "The amplification matrix describes plane waves", "statement": "For a scheme with linear equilibrium, one time step maps the plane wave with amplitude vector a and wave vector k to the plane wave with amplitude G a, where G is the matrix analysed by Stability for the wave vector -k. For a nonlinear equilibrium the same holds for the derivative around a uniform equilibrium state.", "quantifier": "all schemes, wave vectors and amplitudes", "why_tests_cant": "continuum", "anchors": ["pylbm/analysis/stability.py:Stability.eigenvalues", "pylbm/analysis/stability.py:Stability.__init__"]}
{"id": "C52", "title": "HDF5 output assembles the global field", "statement": "In a parallel run each entry of the global dataset is written exactly once, by its owner, so that the file is the (axis reversed) global field whatever the decomposition, and the XDMF file describes the mesh and the sizes of the datasets.", "quantifier": "all process grids, sizes and dimensions", "why_tests_cant": "all decompositions", "anchors": ["pylbm/hdf5.py:H5File"]}
{"id": "C53", "title": "Monitoring times add up", "statement": "For properly nested monitored calls, the recorded total time of a call is its duration, its self time is the duration minus the durations of the monitored calls it made directly, and the self times of all calls sum to the total time of the outermost calls.", "quantifier": "all call trees and clock readings", "why_tests_cant": "all call trees, also recursion and exceptions", "anchors": ["pylbm/monitoring.py:Monitoring.start_timing", "pylbm/monitoring.py:Monitoring.stop_timing", "pylbm/monitoring.py:monitor"]}
{"id": "C54", "title": "hsl_to_rgb stays in the colour cube", "statement": "For h, s, l in [0,1] the three returned components are in [0,1]; their maximum plus minimum is 2 l.", "quantifier": "all h, s, l in [0,1]", "why_tests_cant": "continuum, piecewise code", "anchors": ["pylbm/utils.py:hsl_to_rgb"]}
{"id": "C55", "title": "The progress bar has constant length", "statement": "The bar drawn by print_progress has exactly barLength characters for every iteration between 0 and total, is empty at 0 and full at total, and never shrinks.", "quantifier": "all totals >= 1, iterations <= total, bar lengths", "why_tests_cant": "all values, round-half-even", "anchors": ["pylbm/utils.py:print_progress"]}
{"id": "C56", "title": "Views select valid items only", "statement": "The view helper returns only indices of existing items; True selects all, False none, an integer the item if it exists, a list the members that exist in the order given.", "quantifier": "all requests and all sizes", "why_tests_cant": "all inputs", "anchors": ["pylbm/domain.py:_create_view_something"]}
{"id": "C57", "title": "Time dependent boundary values are refreshed", "statement": "In every step, the values imposed by a time dependent boundary condition are those of the user's function at the time t at the beginning of the step, and those of a stationary condition are those at initialization.", "quantifier": "all histories of steps, all user functions", "why_tests_cant": "all histories", "anchors": ["pylbm/boundary.py:BoundaryMethod.update_feq", "pylbm/simulation.py:Simulation.boundary_condition"]}
{"id": "C58", "title": "Geometry description is read completely", "statement": "get_box infers the dimension and bounds from the box and rejects boxes with missing directions; labels default to -1 and a single label is used for the 2*dim faces; list_of_labels contains exactly the labels of the box and of the elements. Elements given to add_elem are read like those of the dictionary, and refused if their dimension is not that of the box.", "quantifier": "all box dictionaries and element lists", "why_tests_cant": "all dictionaries", "anchors": ["pylbm/geometry.py:get_box", "pylbm/geometry.py:Geometry.list_of_labels", "pylbm/geometry.py:Geometry.add_elem"]}
{"id": "C59", "title": "No boundary link is missed", "statement": "After the domain is built, every link from a fluid cell to a point outside the fluid (beyond a non periodic face of the box, or a solid cell) carries a finite positive distance and a boundary label.", "quantifier": "all grids, velocity sets, lists of elements and cells", "why_tests_cant": "the interplay of several overlapping elements and the box faces has unboundedly many configurations", "anchors": ["pylbm/domain.py:Domain.__add_init", "pylbm/domain.py:Domain.__add_elem"]}
{"id": "C60", "title": "Normal vectors of curved elements and cylinders", "statement": "Where the distance of a curved element (ellipse, circle, ellipsoid, sphere) or of a cylinder is positive, the normal returned has unit length, is orthogonal to the surface at the hit point and does not point along the direction v.", "quantifier": "all elements with independent axes, all points and directions", "why_tests_cant": "a continuum of elements, points and directions", "anchors": ["pylbm/elements/utils.py:distance_ellipse", "pylbm/elements/utils.py:distance_ellipsoid", "pylbm/elements/cylinder.py:Cylinder.distance"]}
{"id": "C61", "title": "An element outside the box changes nothing and does not make the construction fail", "statement": "Building a Domain from any list of elements with non-empty bounds succeeds wherever the elements lie with respect to the box (or to the part of the box owned by the process); elements which do not meet the box leave the map and the links unchanged.", "quantifier": "all grids, all partitions, all lists of elements", "why_tests_cant": "depends on the position of the element relative to the local region of each process; a failing position shows only on some processes", "anchors": ["pylbm/domain.py:Domain.__add_elem"]}
{"id": "C62", "title": "The domain of a process is the restriction of the whole domain", "statement": "On a process owning cells [r0, r1) per axis, the material of every owned cell, and the distance, label and normal of each of its links, are those computed for the same cell when the whole box is built on one process from the same elements.", "quantifier": "all grids, all partitions, all lists of elements, all cells and velocities", "why_tests_cant": "needs comparison of two executions for every partition and every geometry", "anchors": ["pylbm/domain.py:Domain.__add_init", "pylbm/domain.py:Domain.__add_elem", "pylbm/domain.py:Domain.__init__"]}
{"id": "C63", "title": "A scheme declared unstable has growing solutions, one declared stable has bounded ones", "statement": "If Stability.eigenvalues reports 'not stable' for a scheme with linear equilibrium, then on the periodic box with the number of cells given by the sampling of the wave vectors there are initial data for which the computed values are unbounded in time; if it reports 'stable', the values stay bounded for all initial data on this box.", "quantifier": "all linear schemes, samplings and tolerances", "why_tests_cant": "quantifies over unbounded runs and needs spectral reasoning", "anchors": ["pylbm/analysis/stability.py:Stability.eigenvalues", "pylbm/analysis/stability.py:algo_cohn_schur"]}
{"id": "C64", "title": "Labels of the sides of triangles, parallelograms and cylinders", "statement": "The label returned by `distance` for a side hit by a ray is the one the user gave for that side, in the documented order, and `visualize` draws the colour of each label on the side which carries it.", "quantifier": "all elements, all points and directions", "why_tests_cant": "the mapping between sides and labels depends on which side the ray meets first; a continuum of rays", "anchors": ["pylbm/elements/triangle.py:Triangle.distance", "pylbm/elements/parallelogram.py:Parallelogram.distance", "pylbm/elements/cylinder.py:Cylinder.distance", "pylbm/elements/base.py:BaseElement._visualize"]}
{"id": "C65", "title": "Distance, label and normal of a link come from one wall", "statement": "For every link which carries a distance, the distance, the label and the normal stored in the Domain describe the same wall: the first face of the box which the link crosses, or one element which it meets; the normal does not point back to the fluid cell.", "quantifier": "all grids, lists of elements, cells and velocities", "why_tests_cant": "the three arrays are written by separate statements for every element in turn; consistency is a property of all sequences of elements", "anchors": ["pylbm/domain.py:Domain.__add_init", "pylbm/domain.py:Domain.__add_elem"]}
{"id": "C66", "title": "The distance of a link is that of the nearest wall", "statement": "The distance of a link from a fluid cell is the smallest fraction at which the link meets a wall (a face of the box or an element), whatever the order in which the elements are added.", "quantifier": "all grids, lists of solid elements and their permutations, cells and velocities", "why_tests_cant": "quantifies over all geometries and orders of elements", "anchors": ["pylbm/domain.py:Domain.__add_init", "pylbm/domain.py:Domain.__add_elem"]}
{"id": "C67", "title": "EquivalentEquation prints the equation which the scheme solves with order 2", "statement": "The system of partial differential equations of EquivalentEquation (fluxes and second order coefficients multiplied by the time step) is the one approximated by the scheme: the conserved moments computed from smooth data at equilibrium differ from its solution by at most a constant times the square of the space step, up to a fixed time.", "quantifier": "linear equilibria and relaxation parameters between 0 and 2: all finite sums of plane waves; smooth nonlinear equilibria and relaxation parameters which depend on the state: all smooth periodic solutions, truncation error for all schemes, convergence for those whose collision does not increase distances; all space steps and sizes of periodic boxes", "why_tests_cant": "a test compares errors on a few meshes; the order is a statement about all meshes and all smooth data", "anchors": ["pylbm/analysis/equivalent_equation.py:EquivalentEquation.__init__", "pylbm/analysis/equivalent_equation.py:EquivalentEquation.__str__"]}
{"id": "C68", "title": "Initialisation from the dictionary", "statement": "A Simulation built from an `init` dictionary holds at each cell the equilibrium distribution functions of the given conserved moments (or the given distribution functions), evaluated at the centre of the cell; halo cells included. On any process grid the values at a global cell are those of the single process, and a complete run (construction and k time steps) gives the same values on any two process grids.", "quantifier": "all schemes, dictionaries of constants and functions, grids, process grids, numbers of steps", "why_tests_cant": "quantifies over all dictionaries, decompositions and runs", "anchors": ["pylbm/simulation.py:Simulation.initialization", "pylbm/simulation.py:Simulation.f2m", "pylbm/simulation.py:Simulation.m2f", "pylbm/domain.py:Domain.create_coords"]}
{"id": "C69", "title": "A relative velocity which is a conserved moment itself", "statement": "With the NumPy backend the relative velocity of a cell keeps during the time step the value computed from the transported distribution functions, as with the compiled backends, also when it is given as a bare conserved moment.", "quantifier": "all schemes with relative velocities, states and cells", "why_tests_cant": "the difference only shows in the aliasing of array views, for particular schemes", "anchors": ["pylbm/algorithm/base.py:BaseAlgorithm.relative_velocity", "pylbm/generator/printing/pycode.py:NumpyPrinter._print_For"]}
{"id": "C70", "title": "Symbols in the expressions of a scheme", "statement": "Whatever symbols are used in the equilibrium, the relaxation parameters, the relative velocity and the source terms (conserved moments, coordinates, time, parameters, extra parameters), every generated function has arguments with different names, each argument is found when the function is called and is the object meant by the user, and every local variable used is assigned.", "quantifier": "all schemes and extra parameters, all settings", "why_tests_cant": "quantifies over all symbolic expressions of users", "anchors": ["pylbm/algorithm/base.py:BaseAlgorithm._get_args", "pylbm/algorithm/base.py:BaseAlgorithm.relaxation_local", "pylbm/algorithm/base.py:BaseAlgorithm.coords", "pylbm/generator/codegen.py:CodeGen.routine", "pylbm/symbolic.py:call_genfunction", "pylbm/boundary.py:BoundaryMethod._get_args"]}
{"id": "C71", "title": "Distances to the surface of an STL element", "statement": "The distance computed along a link by an STL element is the first time in [0, dmax] at which the link meets a triangle which is not parallel to it, with the label of the element and the normal of a triangle met there; it is infinite with label -1 when there is none. On a link from a point outside to a point inside the closed surface the distance is found and everything before it is outside.", "quantifier": "all meshes, points, velocities and bounds dmax", "why_tests_cant": "quantifies over all meshes, points and directions", "anchors": ["pylbm/elements/stl_element.py:intersection", "pylbm/elements/stl_element.py:STLElement.distance"]}
{"id": "C72", "title": "The points inside an STL element", "statement": "For a closed surface with normals to the outside, point_inside holds exactly at the points inside the surface, whatever the order of the triangles in the file.", "quantifier": "all closed meshes and points", "why_tests_cant": "quantifies over all meshes and all points; failures sit on half lines through edges", "anchors": ["pylbm/elements/stl_element.py:STLElement.point_inside"]}
{"id": "C73", "title": "check_isfluid only skips solid cells", "statement": "With the setting check_isfluid the loops skip the cells which are not fluid. The distributions of the fluid cells are then, after any number of time steps, the same as without the setting, whatever the contents of the solid cells, the backends and the decompositions, as long as every link of a fluid cell leads to a fluid cell or has a boundary condition.", "quantifier": "all domains, boundary conditions, schemes, initial values, numbers of steps, process grids, settings of each process", "why_tests_cant": "all executions; the skipped cells keep old values which differ between backends and could leak later", "anchors": ["pylbm/algorithm/base.py:BaseAlgorithm.one_time_step", "pylbm/domain.py:Domain.in_or_out", "pylbm/boundary.py:BoundaryMethod"]}
{"id": "C74", "title": "A wall sends back the populations which reach it", "statement": "On every link of a fluid cell which meets a wall, the population coming from the wall after the boundary conditions is the one documented for the class given by the user: bounce-back the population which leaves the cell towards the wall, anti bounce-back its opposite, the interpolated classes the interpolation with the distance of the wall, Neumann the population of the cell itself; plus, for the first four, the difference (sum) of the two populations at equilibrium with the values imposed at the point where the link meets the wall, and nothing when no value is given. All populations are those before the boundary conditions.", "quantifier": "all domains, lists of elements, labels, classes on each label and scheme, values on the walls, distributions and links", "why_tests_cant": "quantifies over all domains and links; the indices, copies and the order of the updates decide", "anchors": ["pylbm/boundary.py:Boundary.__init__", "pylbm/boundary.py:BoundaryMethod.prepare_rhs", "pylbm/boundary.py:BounceBack", "pylbm/boundary.py:BouzidiBounceBack", "pylbm/boundary.py:Neumann"]}
{"id": "C75", "title": "The generated functions keep the structure of the loops", "statement": "Whatever the statements of the routines (numbers of loops, of indices, of lines of the assignments, names of symbols), the indented text written by the Cython and NumPy generators is read by Python in exactly one way: the sequence of the functions, each statement in the body of the loops to which it belongs.", "quantifier": "all lists of routines", "why_tests_cant": "quantifies over all routines and names of symbols; the indentation is guessed from the last characters of the lines", "anchors": ["pylbm/generator/printing/cython.py:CythonCodePrinter.indent_code", "pylbm/generator/printing/cython.py:CythonCodePrinter._print_For", "pylbm/generator/printing/pycode.py:NumPyPrinter.indent_code", "pylbm/generator/codegen.py:CodeGen.dump_code"]}
{"id": "C76", "title": "The generated formulas have the value of the symbolic expressions", "statement": "For every symbolic expression (numbers, symbols, functions, sums, products, powers) the text written by the Cython, Loopy and NumPy printers is an arithmetic expression of the language, read in only one way, and its value is that of the symbolic expression, up to the rounding of the numbers to decimals.", "quantifier": "all symbolic expressions, values of the symbols and functions", "why_tests_cant": "quantifies over all expressions; parentheses, signs and quotients depend on nested precedences", "anchors": ["pylbm/generator/printing/cython.py:CythonCodePrinter._print_Pow", "pylbm/generator/printing/cython.py:CythonCodePrinter._print_Rational", "pylbm/generator/printing/cython.py:CythonCodePrinter._print_Piecewise", "pylbm/generator/printing/loopy.py:LoopyCodePrinter._print_Pow", "pylbm/generator/printing/pycode.py:NumPyPrinter._print_Pow", "pylbm/generator/printing/pycode.py:AbstractPythonCodePrinter._hprint_Pow"]}
{"id": "C77", "title": "The entries of each scheme act on its own distribution functions", "statement": "With several coupled schemes of any sizes, the i-th polynomial, relaxation parameter and equilibrium value of a scheme are those of its own i-th moment. A scheme given by feq with one relaxation parameter omega relaxes its distribution functions towards feq, f_j -> (1 - omega) f_j + omega feq_j with feq at its own velocities, whatever its polynomials and the other schemes. Entries of wrong sizes are refused.", "quantifier": "all lists of schemes, polynomials, parameters, functions feq, distributions", "why_tests_cant": "quantifies over all lists of schemes and invertible sets of polynomials; offsets and blocks could only be sampled", "anchors": ["pylbm/scheme.py:Scheme.__init__", "pylbm/scheme.py:Scheme._get_equilibrium", "pylbm/scheme.py:Scheme._check_entry_size", "pylbm/scheme.py:Scheme._create_moments_matrices"]}
{"id": "C78", "title": "Walls at rest do not create or lose mass", "statement": "In a domain whose walls and obstacles all use the bounce-back without imposed velocity, the sum over all the fluid cells of a conserved moment that does not depend on the sign of the velocities (the mass) is the same after any number of calls of one_time_step, on any number of processes.", "quantifier": "all geometries without holes, stencils, schemes with such a moment, coupled schemes, initial values, decompositions, backends and numbers of steps", "why_tests_cant": "quantifies over geometries, nonlinear equilibria, decompositions and numbers of steps; a test sees one geometry with a tolerance", "anchors": ["pylbm/boundary.py:BounceBack", "pylbm/domain.py:Domain.__add_init", "pylbm/domain.py:Domain.__add_elem", "pylbm/simulation.py:Simulation.one_time_step"]}
{"id": "C79", "title": "A source term acts on the moments of its cell", "statement": "In source_terms, the name of a conserved moment stands for the value of that moment in the cell which is updated, and the name with indices (u[ix+1, iy]) for its value in that cell, whatever the place of the velocity axis in the storage, the backend, the other source terms and the names chosen for the moments.", "quantifier": "all source expressions, names, numbers of conserved moments, storage orders, lists of source terms", "why_tests_cant": "quantifies over all expressions and names; the expression goes through its text and a rewriting of tokens, which samples cannot exhaust", "anchors": ["pylbm/algorithm/transform.py:transform_expr", "pylbm/algorithm/transform.py:reorder", "pylbm/algorithm/transform.py:parse_expr", "pylbm/algorithm/base.py:BaseAlgorithm.source_term_local"]}
{"id": "C80", "title": "A uniform equilibrium stays as it is", "statement": "If the simulation starts with the same populations in all the fluid cells, at equilibrium, and the walls and obstacles impose nothing else (a fluid at rest with bounce-back, the uniform flow itself with bounce-back or anti bounce-back, Neumann conditions), then every fluid cell still holds these populations after any number of calls of one_time_step, on any number of processes.", "quantifier": "all geometries with obstacles, stencils, schemes with nonlinear equilibria, boundary methods per label, decompositions, backends and numbers of steps", "why_tests_cant": "quantifies over geometries, schemes, decompositions and numbers of steps; the first wrong ghost value is enough to break it", "anchors": ["pylbm/boundary.py:BounceBack", "pylbm/boundary.py:BouzidiBounceBack", "pylbm/boundary.py:AntiBounceBack", "pylbm/boundary.py:Neumann", "pylbm/simulation.py:Simulation.one_time_step"]}
{"id": "C81", "title": "Periodic simulations follow the symmetries of the scheme", "statement": "On a periodic box, initial values moved by a translation give the same solution moved by this translation; initial values turned or mirrored give the solution turned or mirrored, when the set of velocities, the moments, the equilibrium and the relaxation parameters have this symmetry; whatever the numbers of processes of the two simulations.", "quantifier": "all sizes of the box, translations, mirrors and quarter turns, schemes with nonlinear equilibria, initial values, decompositions, backends and numbers of steps", "why_tests_cant": "relates two executions for all initial values and decompositions; the cut of the box between processes has no symmetry", "anchors": ["pylbm/simulation.py:Simulation.one_time_step", "pylbm/storage.py:Array.update", "pylbm/algorithm/base.py:BaseAlgorithm", "pylbm/container.py:CythonContainer"]}
{"id": "C82", "title": "Bounds on the populations are kept", "statement": "With one relaxation parameter between 0 and 1 and equilibrium populations within given bounds (non negative, or in an interval which is the same for opposite velocities) as long as the populations are, and with walls at rest (bounce-back, interpolated or not) or Neumann conditions, the populations of the fluid cells stay within the bounds for any number of time steps.", "quantifier": "all geometries with obstacles, stencils, schemes, bounds, decompositions, backends and numbers of steps", "why_tests_cant": "a stability statement over all initial values and numbers of steps; the weights of the interpolated conditions and the collision decide", "anchors": ["pylbm/boundary.py:BouzidiBounceBack", "pylbm/boundary.py:BounceBack", "pylbm/boundary.py:Neumann", "pylbm/simulation.py:Simulation.one_time_step", "pylbm/algorithm/base.py:BaseAlgorithm.relaxation_local"]}
{"id": "C83", "title": "The order of execution chosen by Loopy does not change the result", "statement": "With the Loopy backend, which may execute the instructions of a kernel in any order compatible with the declared dependencies, one call of the generated one_time_step computes what the assignments compute in the order of the text (what the Cython and NumPy kernels do), for both algorithms, in all dimensions, with or without relative velocity and source terms, and the dependencies are never circular.", "quantifier": "all orders of execution allowed by the dependencies, schemes, numbers of velocities, dimensions, source terms, values", "why_tests_cant": "the order is chosen by Loopy and differs between versions and devices; a test sees one of them", "anchors": ["pylbm/generator/printing/loopy.py:LoopyCodePrinter.doprint", "pylbm/generator/printing/loopy.py:LoopyCodePrinter._print_Assignment", "pylbm/generator/codegen.py:LoopyCodeGen", "pylbm/algorithm/pull.py:PullAlgorithm.one_time_step_local", "pylbm/algorithm/base.py:BaseAlgorithm.one_time_step_local"]}
{"id": "C84", "title": "The halo update of the Loopy backend is the periodic extension", "statement": "With the Loopy backend, Array.update leaves the owned cells unchanged and gives every cell of the halo (faces, edges and corners) the value of the cell of the periodic domain at this position, whatever the velocities of the scheme and the number of processes, and whatever the order in which the device executes the assignments of the kernels.", "quantifier": "all dimensions, sizes, widths of the halo, numbers of velocities, decompositions, values, orders of the work items", "why_tests_cant": "the order of execution is chosen by the device; sizes, velocities and decompositions are unbounded and most tests run one process with short velocities", "anchors": ["pylbm/storage.py:Array.update", "pylbm/storage.py:Array.generate"]}
{"id": "C85", "title": "Reads and assignments of the arrays do not depend on the backend", "statement": "Reading and assigning m_halo, F_halo, m and F between time steps has the same effect with the Loopy backend (arrays on the device and a copy in memory) as with the Cython backend: a read returns what the kernels have computed, an assignment changes the positions assigned and no other, and assignments of parts of an array which was read change the solution.", "quantifier": "all histories of kernels, exchanges of F and Fnew, reads and assignments", "why_tests_cant": "all histories; the two copies differ only after particular orders of reads, kernels and assignments", "anchors": ["pylbm/storage.py:Array.__getitem__", "pylbm/storage.py:Array.__setitem__", "pylbm/storage.py:Array._in", "pylbm/simulation.py:Simulation.one_time_step"]}
{"id": "C86", "title": "The mirrored problem has the mirrored solution", "statement": "Setting up the mirror image of a problem (elements with mirrored parameters, labels of opposite faces exchanged, mirrored initial values and imposed values, a scheme which does not distinguish a velocity and its mirror image) gives the mirror image of the fluid map, of the distances, labels and normals of the links, and of the solution at every time step; in particular a symmetric problem keeps a symmetric solution. The same is expected for the exchange of the axes of a square box.", "quantifier": "all boxes, elements, labels, boundary methods, decompositions, numbers of steps, orders of messages", "why_tests_cant": "it compares pairs of problems over all geometries and lengths of run; tests run one geometry and a broken symmetry shows up in corners or after many steps", "anchors": ["pylbm/domain.py:Domain.add_init", "pylbm/domain.py:Domain.add_elem", "pylbm/boundary.py:Boundary", "pylbm/elements/utils.py:distance_lines", "pylbm/simulation.py:Simulation.one_time_step"]}
{"id": "C87", "title": "A part read from an STL file acts like the region it bounds", "statement": "Adding to a geometry a part read from an STL file, solid or fluid, in any order with other elements, gives the fluid map, the distances, the labels and the normals of the region bounded by the surface: links of the fluid cut by the surface carry the label of the part, and links which the surface does not cut keep the distance and the label they had (the label of the face of the box, or of the other element).", "quantifier": "all boxes, steps, velocities, meshes, regions, lists of elements, cells and links", "why_tests_cant": "meshes, regions and positions of the cells are unbounded; the tests draw one mesh and do not look at links out of the box", "anchors": ["pylbm/elements/stl_element.py:STLElement", "pylbm/domain.py:Domain.__add_elem"]}
{"id": "C88", "title": "The solution travels at most one halo width per step, and only through the fluid", "statement": "The value of a distribution on a cell after k steps depends only on the initial values of the cells at most k halo widths away (with periodicity) and on the values imposed at the walls met in time; and the solution in a part of the fluid which no fluid link leaves does not depend on the initial values and on the imposed values outside this part. Both hold for any number of processes, decomposition and backend of the two runs.", "quantifier": "all boxes, elements, boundary methods, decompositions, numbers of steps, initial and imposed values, orders of messages", "why_tests_cant": "it compares pairs of runs over all initial values and lengths; a leak through a wall, a wrong ghost cell or a halo read too late changes values far away only after many steps", "anchors": ["pylbm/simulation.py:Simulation.one_time_step", "pylbm/boundary.py:BoundaryMethod.update", "pylbm/storage.py:Array.update", "pylbm/algorithm/base.py:BaseAlgorithm.transport_local"]}
{"id": "C89", "title": "The solution does not depend on the units and on the origin of the coordinates", "statement": "Writing the same problem with another unit of length, another unit of time or another origin (box, space step, parameters of the elements, functions of the initial and boundary values, scheme velocity, moments, equilibrium, relative velocity and sources) is accepted or refused in both cases, gives the same number of cells, the coordinates of the same points, the same fluid map, distances, labels and normals, and the same distribution functions at every time step.", "quantifier": "all units, origins, boxes, elements, schemes, boundary methods, decompositions, numbers of steps", "why_tests_cant": "it compares pairs of problems over all factors and geometries; tests use one unit, in which hidden absolute tolerances have the size the author had in mind", "anchors": ["pylbm/domain.py:Domain", "pylbm/elements/base.py:Element", "pylbm/elements/ellipse.py:Ellipse.__init__", "pylbm/elements/cylinder.py:Cylinder.distance", "pylbm/scheme.py:Scheme", "pylbm/boundary.py:Boundary", "pylbm/simulation.py:Simulation.one_time_step"]}
{"id": "C90", "title": "Linear schemes: solutions can be added, and differences do not grow", "statement": "When the equilibrium and the sources of a scheme are linear functions of the moments (constant relaxation parameters and relative velocity), the solution for a combination of initial values and imposed values is the same combination of the solutions, at every time step, with walls, obstacles and periodic faces; with affine equilibria this holds for the combinations whose coefficients have the sum 1. When the collision keeps bounds (relaxation parameter between 0 and 1, positive equilibrium), two solutions which start ordered stay ordered and their difference is never amplified.", "quantifier": "all linear schemes, initial values, imposed values, coefficients, geometries, decompositions, backends, numbers of steps", "why_tests_cant": "it compares triples of runs over all data; a test of one run cannot see that a step depends on the data in a nonlinear way", "anchors": ["pylbm/algorithm/base.py:BaseAlgorithm.relaxation_local", "pylbm/boundary.py:BoundaryMethod.set_rhs", "pylbm/boundary.py:BounceBack", "pylbm/boundary.py:BouzidiBounceBack", "pylbm/simulation.py:Simulation.initialization", "pylbm/simulation.py:Simulation.one_time_step"]}
{"id": "C91", "title": "What the validation of the input dictionary guarantees", "statement": "The validation accepts a dictionary exactly when all its keys are known, their values have the right kinds, the keys required by the class are there, and exactly one of dim/box (stencil, scheme), M/polynomials and equilibrium/feq is given; the order of the keys does not matter and the dictionary of a simulation is accepted by all the classes. For an accepted dictionary the constructors of Simulation find all that they read exactly when some further conditions hold (which the validation does not check), and the dimensions of the domain and of the scheme agree. The report on the dictionary is produced for every dictionary and shows all the faulty keys.", "quantifier": "all dictionaries, classes, trees of errors, labels of the domain", "why_tests_cant": "dictionaries are nested and unbounded; the tests of the repository validate a few of them", "anchors": ["pylbm/validator.py:validate", "pylbm/validator.py:rec_dict", "pylbm/validator.py:rec_list", "pylbm/geometry.py:get_box", "pylbm/geometry.py:Geometry.__init__", "pylbm/stencil.py:Stencil.extract_dim", "pylbm/domain.py:Domain.construct_mpi_topology", "pylbm/scheme.py:Scheme.__init__", "pylbm/scheme.py:Scheme._get_space_and_time_symbolic", "pylbm/simulation.py:Simulation.__init__", "pylbm/boundary.py:Boundary.__init__"]}
{"id": "C92", "title": "Each simulation runs the code generated for it", "statement": "The module with the generated functions is written, imported and cleaned up so that each simulation runs its own code, or, with generate=False, the last code generated in its directory, for any sequence of simulations in a process; the search path of Python is as before, and nothing is left behind without codegen_option.", "quantifier": "all sequences of simulations with any options, contents of the directories, search paths", "why_tests_cant": "the effect depends on the whole history of the process and of the directories; the tests build one simulation at a time in a temporary directory", "anchors": ["pylbm/generator/autowrap.py:CodeWrapper.wrap_code", "pylbm/generator/autowrap.py:CodeWrapper._process_files", "pylbm/generator/generator.py:Generator.compile", "pylbm/simulation.py:Simulation.__init__"]}
{"id": "C93", "title": "The table of --monitoring", "statement": "Whatever a program does with the simulations, the monitored functions of pylbm never call themselves, so that the table printed at the end is right: one line per function with its number of calls, total time and self time (between 0 and the total time), in the order of the total times, with percentages of the largest one and the number of updated cells per second.", "quantifier": "all nestings of calls of the functions of pylbm, all times, all orders of equal times", "why_tests_cant": "the nesting and the times are unbounded; no test looks at the table", "anchors": ["pylbm/monitoring.py:Monitoring.print", "pylbm/monitoring.py:Monitoring.information", "pylbm/symbolic.py:call_genfunction", "pylbm/simulation.py:Simulation.one_time_step", "pylbm/simulation.py:Simulation.boundary_condition"]}
{"id": "C94", "title": "The compiled functions stay inside the arrays", "statement": "The Cython modules are compiled without bounds checks. For every domain, every list of solids, every boundary method and every storage order, the functions generated for the boundary conditions read and write the array of the distribution functions inside its bounds; the loops of the moment, equilibrium and relaxation functions cover indices inside the array, and the reads of the transport are inside the array.", "quantifier": "all built domains, all boundary dictionaries, all values, all storage orders, all grid sizes, all velocities and halos", "why_tests_cant": "An access outside an array without bounds checks usually raises nothing and changes nothing visible; a test on a few grids cannot show that no index is ever outside.", "anchors": ["pylbm/generator/codegen.py:1030-1048", "pylbm/boundary.py:28-46", "pylbm/boundary.py:400-895", "pylbm/algorithm/base.py:168-249", "pylbm/symbolic.py:84-108", "pylbm/storage.py:100-106"]}
{"id": "C95", "title": "The stability analysis uses the state and the parameters given", "statement": "Stability.eigenvalues computes the eigenvalues of the amplification matrix of the scheme at the state given for the conserved moments, with the parameters of the scheme and the additional parameters given by the caller; a value which is missing is reported. In visualize, the pictures correspond to the values shown by the sliders, whatever the moves made before.", "quantifier": "all schemes, all states, all dictionaries of parameters (with expressions of other parameters), all sequences of moves of the sliders", "why_tests_cant": "A value which is silently ignored gives eigenvalues of another scheme, which look as plausible as the right ones; a test with given values does not show which of the values are used.", "anchors": ["pylbm/analysis/stability.py:64-127", "pylbm/analysis/stability.py:145-163", "pylbm/analysis/stability.py:232-340", "pylbm/symbolic.py:278-285"]}
{"id": "C96", "title": "The pictures show what is simulated", "statement": "visualize of an element, of the geometry and of the domain draws the shapes where they are: in the plane each patch covers exactly the points of the shape, a point of the box is white exactly when the last shape which contains it is solid, so that the centre of a cell is white exactly when the cell is solid; the markers are the centres of the fluid cells and of the other ones; the segments of view_distance go from the fluid cells to the walls, all the links with a distance are drawn and only those with the labels asked for, and view_normal shows the unit normals. Stencil.visualize writes the number of each velocity at its position. In space the vertices drawn for the solids are on their surfaces and the faces of the box have their own labels.", "quantifier": "all lists of shapes, all opacities, all built domains, all cells and velocities, all stencils, all solids", "why_tests_cant": "The tests compare a few pictures with stored ones; a picture of another geometry may be wrong without any error.", "anchors": ["pylbm/geometry.py:218-325", "pylbm/domain.py:640-850", "pylbm/stencil.py:880-962", "pylbm/elements/ellipse.py:172-192", "pylbm/elements/cylinder.py:229-271", "pylbm/viewer/matplotlib_viewer.py:560-640"]}
{"id": "C97", "title": "Balance of the totals with source terms", "statement": "With source_terms the totals over the domain follow the sources: the total of a conserved moment without source does not change, whatever the sources of the other moments are; with a source lambda*m + b the total after k time steps is that of 2k half steps of the explicit Euler method for T' = lambda*T + N*b, where N is the number of (fluid) cells, so that a constant source adds exactly b*dt per cell and time step; systems of linear sources act on the vector of the totals in the same way, and sources which compensate each other keep the weighted sum of the totals. This holds on periodic domains and in closed tanks with walls at rest, and with a relative velocity.", "quantifier": "all dimensions, process grids and schedules, both algorithms, all backends, equilibria, relaxation parameters, sources of the other moments, initial states and numbers of time steps", "why_tests_cant": "The tests run a few demos with sources for a short time and compare with stored results of the same code.", "anchors": ["pylbm/algorithm/base.py:255-263", "pylbm/algorithm/base.py:439-470", "pylbm/algorithm/base.py:506-549", "pylbm/algorithm/pull.py:11-59", "pylbm/simulation.py:336-341"]}
{"id": "C98", "title": "Energy of linear schemes", "statement": "A scheme with affine equilibria, constant relaxation parameters between 0 and 2, and deviations from the equilibrium which are orthogonal for positive weights when they have different relaxation parameters, never blows up: the weighted sum over the cells of the squares of the difference of two runs never increases, on periodic domains and in domains closed by walls with bounce-back or anti-bounce-back, whatever values are imposed on the walls; with linear equilibria every population is bounded for all times by the initial energy; Stability never calls such a scheme unstable. One relaxation parameter outside [0, 2] is enough for exponential growth.", "quantifier": "all dimensions, process grids and schedules, both algorithms, all backends, schemes with affine equilibria, weights, walls and obstacles, imposed values, initial states and numbers of time steps", "why_tests_cant": "Boundedness for all times and all initial states cannot be seen in runs of finite length; the tests run short simulations.", "anchors": ["pylbm/algorithm/base.py:404-428", "pylbm/algorithm/base.py:506-549", "pylbm/algorithm/pull.py:11-59", "pylbm/boundary.py:400-470", "pylbm/boundary.py:626-685", "pylbm/stability.py:38-121"]}
{"id": "C99", "title": "Conditions, minima and maxima in the formulas", "statement": "With the NumPy backend a formula with Piecewise, comparisons, And, Or, Not, Min and Max in an equilibrium, a relaxation parameter or a source term has in each cell the value of the formula for the moments of this cell: the first condition which holds decides, nan if there is none; every formula which has a value is accepted.", "quantifier": "all formulas, all nestings, all values (nan included), all numbers of cells", "why_tests_cant": "The tests use formulas without conditions; which pairs of shapes fail or which condition wins depends on the formula.", "anchors": ["pylbm/generator/printing/pycode.py:867-952", "pylbm/algorithm/base.py:123-136"]}
{"id": "C100", "title": "The result does not depend on the order in the dictionary", "statement": "The order in which the velocities, the polynomials of the moments (with their equilibria, relaxation parameters and source terms), the conserved moments and the elementary schemes are listed in the dictionary does not change the simulation: the constructors give the same scheme and the same unique velocities up to the order, and in two runs from the same initial state the populations of the same velocity of the same scheme, the moments of the same polynomial and the conserved moments of the same symbol are equal in all fluid cells at all times, with the same walls and imposed values.", "quantifier": "all permutations of the velocities, moments, conserved moments and schemes, all dimensions, equilibria, relaxation parameters, walls and obstacles, process grids and schedules, both algorithms, all backends, initial states and numbers of time steps", "why_tests_cant": "The tests run each demo with one order of the dictionary; there are n! orders and the effect of an order may be small.", "anchors": ["pylbm/scheme.py:169-252", "pylbm/scheme.py:580-640", "pylbm/stencil.py:643-700", "pylbm/boundary.py:78-160", "pylbm/algorithm/base.py:404-549", "pylbm/algorithm/pull.py:11-59"]}
{"id": "C101", "title": "Rounding errors accumulate at most linearly", "statement": "When every operation of the collision is computed with a relative error of at most u, the total in a periodic domain of a moment which the exact collision conserves (the mass also in a closed tank) drifts by at most a constant times u per cell and time step, however inexactly the equilibria, the relative velocity and the sources of the other moments are computed; with a source lambda*m + b it follows the exact balance up to errors which later steps multiply by (1 + lambda dt/2)^2 like the total itself. Two computations of the same run of a scheme whose collision does not amplify differences (on other numbers of processes, other backends, or the exact one), disturbed in each step by at most delta per population, differ after k steps by at most 2 k delta; for the dissipative schemes the energy of the difference from the exact run is at most (k delta)^2 times the number of cells.", "quantifier": "all schemes, expressions of the generated code, roundings within the relative error (also different ones per process, operation and step), process grids and schedules, both algorithms, all backends, initial states and numbers of time steps", "why_tests_cant": "The drift appears after millions of steps and depends on the compiler, the processor and the decomposition; a test sees one of them for a few hundred steps and compares with a tolerance.", "anchors": ["pylbm/algorithm/base.py:298-428", "pylbm/algorithm/pull.py:11-59", "pylbm/simulation.py:373-426"]}
{"id": "C102", "title": "A simulation can be stopped and restarted", "statement": "A run of k time steps whose populations or moments are saved, and a new simulation (on another number of processes, with another backend) which receives them (init with inittype distributions, assignment of all the F_halo, or assignment of all the m_halo followed by m2f) and the time (t and nt), which then does j steps: the fluid cells, t and nt are those of an uninterrupted run of k + j steps. A restart from all the saved moments with inittype moments continues the run as well.", "quantifier": "all dimensions, walls and obstacles, imposed values depending on the time, process grids and schedules of the three runs, backends, schemes, numbers of steps before and after the restart", "why_tests_cant": "The tests never restart a simulation; the differences after a restart from the moments are small transients.", "anchors": ["pylbm/simulation.py:107-108", "pylbm/simulation.py:146-163", "pylbm/simulation.py:200-245", "pylbm/simulation.py:258-320", "pylbm/simulation.py:393-426"]}
{"id": "C103", "title": "A scheme which does not use the others evolves as if it were alone", "statement": "In a dictionary with several elementary schemes, a group of schemes whose equilibria, relaxation parameters, relative velocity and source terms only use the conserved moments of the group evolves exactly as in a simulation with this group alone, whatever the other schemes are (a passive scalar does not change the flow which carries it; adding a scheme to a dictionary changes nothing for the ones already there): the populations and the moments of the group are equal in all fluid cells at all times, with the same walls, obstacles, methods and imposed values for the group, although the stencil, the width of the halo, the order of the moments and the numbers of the velocities are other ones.", "quantifier": "all dictionaries and sub-dictionaries, all dimensions, equilibria, relaxation parameters and sources of the group and of the others, walls and obstacles, process grids and schedules of both runs, both algorithms, all backends, initial states and numbers of time steps", "why_tests_cant": "The tests run each demo with one dictionary and never compare a simulation with one of a part of its schemes; there are unboundedly many possible other schemes.", "anchors": ["pylbm/scheme.py:169-252", "pylbm/scheme.py:580-640", "pylbm/stencil.py:643-700", "pylbm/domain.py:393-640", "pylbm/boundary.py:78-160", "pylbm/algorithm/base.py:404-549", "pylbm/algorithm/pull.py:11-59"]}
{"id": "C104", "title": "A dictionary can be used for several objects", "statement": "Building a Scheme or a Simulation does not change the dictionary nor the objects built before: any number of schemes and simulations built one after the other from the same dictionary (or from several which share entries) are what each would be if it were the only one, also after the others have been built.", "quantifier": "all dictionaries (polynomials or matrix of the moments, equilibrium in moments or in distribution functions), all positions of the conserved moments, any number of constructions in any order", "why_tests_cant": "The tests build one object per dictionary and look at it at once; the effect only appears in the second one, depends on where the conserved moments are, and can disappear again in the third one.", "anchors": ["pylbm/scheme.py:136-190", "pylbm/scheme.py:202-241", "pylbm/scheme.py:580-607", "pylbm/simulation.py:88-150"]}
{"id": "C105", "title": "Parameters given during a run count like those of the dictionary", "statement": "A symbol of the dictionary may be given a value in 'parameters' or, after the construction, in simulation.extra_parameters, and the latter may be changed between two calls. Whatever part of the parameters is in the dictionary and whatever part is given at run time, every formula (matrices, equilibria, relaxation parameters, sources, boundary values, time step) has the value it would have with all of them in the dictionary, in any order of the dictionary; and after a change every operation is the one of a simulation built with the new values.", "quantifier": "all formulas, all dictionaries and orders of their entries, all splits of the parameters, all sequences of public operations and of changes, all values, walls with and without time_bc", "why_tests_cant": "The tests give the parameters once, in the dictionary; the effect depends on the order of the entries, on what was called before the change and on which formulas the parameter enters.", "anchors": ["pylbm/simulation.py:97-150", "pylbm/simulation.py:191-222", "pylbm/algorithm/base.py:97-149", "pylbm/algorithm/base.py:630-681", "pylbm/boundary.py:238-321", "pylbm/symbolic.py:278-299"]}
{"id": "C106", "title": "The code is generated on all the processes of a parallel run", "statement": "Every process of a parallel run writes, builds and imports the module with the generated functions. Whatever the order in which the system calls of the processes are executed, each process gets the whole code of its simulation and none of them stops, without codegen_option, with a directory given to all the processes (new or existing), and with generate=False and a directory prepared before.", "quantifier": "all numbers of processes, all interleavings of their system calls, all codes and ways to cut the text into writes, NumPy, Loopy and Cython", "why_tests_cant": "The race between the processes depends on the scheduling and on the file system; a test sees one interleaving, on one process.", "anchors": ["pylbm/generator/autowrap.py:36-90", "pylbm/generator/autowrap.py:166-179", "pylbm/generator/codegen.py:899-996", "pylbm/simulation.py:112-124"]}
{"id": "C107", "title": "Shear flows and linear profiles between walls are computed without error", "statement": "A steady flow whose conserved moments are affine functions of the position (a Couette flow between walls which move along themselves, a linear temperature between two walls) is an exact solution of the scheme. A simulation which starts from its populations, with the state of the flow imposed where the links meet the walls (bounce-back for odd moments, anti bounce-back for even ones, the interpolated methods for walls at any distance), keeps it: at all times the moments read in every fluid cell are the affine functions at the centre of the cell, in channels and closed boxes, along any axis.", "quantifier": "all linear schemes with even and odd moments, all relaxation parameters different from 0, all affine fields, all dimensions, distances of the walls, periodic axes, process grids and schedules, both algorithms, all numbers of steps", "why_tests_cant": "A test looks at one flow with one viscosity and a tolerance of the order of the discretisation error, so that an error at the walls or in the corners cannot be told from the usual error of the scheme.", "anchors": ["pylbm/boundary.py:400-895", "pylbm/domain.py:393-560", "pylbm/simulation.py:393-426", "pylbm/algorithm/base.py:404-549", "demo/2D/Poiseuille.py:1-120"]}
{"id": "C108", "title": "Without dissipation a simulation can be played backwards", "statement": "With relaxation parameters 0 or 2, moments and equilibria which are even or odd in the velocity, and bounce-back or anti bounce-back on walls which may move, the scheme is reversible: after any number of steps, the relaxed populations turned round (each velocity exchanged with its opposite) are the initial state of a simulation, with the walls moved in the opposite order of time, which goes back through the former states: its density is the former one and its momentum the opposite one, step by step. With another relaxation parameter this is false.", "quantifier": "all schemes (nonlinear equilibria included), dimensions, geometries without holes, wall values depending on time and place, process grids and schedules, both algorithms for each of the two runs, all numbers of steps forwards and backwards", "why_tests_cant": "A test can reverse one run of a few steps with rounding errors which a wrong wall or a wrong order of collision and transport may not exceed; that no information is lost for all states is a statement on the whole map.", "anchors": ["pylbm/simulation.py:393-426", "pylbm/algorithm/base.py:404-549", "pylbm/boundary.py:400-560", "pylbm/stencil.py:817-870"]}
{"id": "C109", "title": "The choice of the moments does not change a simulation", "statement": "The polynomials of the moments are a choice of basis. If they are replaced by combinations of each other (invertible, conserved moments into conserved moments, equilibria and source terms combined in the same way) which combine only moments with the same relaxation parameter, apart from the conserved ones, the distribution functions of a simulation are the same in all cells at all times, and the moments which are read are the same combinations; conversely, if the collisions agree for all states, only such moments have been combined. A relative velocity is such a change of moments at each point: with one relaxation parameter it has no effect.", "quantifier": "all schemes and invertible combinations, nonlinear equilibria, all domains, walls, process grids and schedules, both algorithms, all numbers of steps", "why_tests_cant": "Two bases of moments are never compared by the tests, and for one pair of bases a wrong inverse or a wrong place of the conserved moments shows only for states outside the equilibrium.", "anchors": ["pylbm/scheme.py:464-531", "pylbm/algorithm/base.py:404-549", "pylbm/algorithm/pull.py:11-59", "pylbm/simulation.py:393-426"]}
{"id": "C110", "title": "Monotone schemes keep the order of two simulations, and their distance does not grow", "statement": "For a scheme with one conserved moment, one relaxation parameter between 0 and 1 and equilibria whose populations are non decreasing functions of the conserved moment, two simulations whose populations are ordered in all cells stay ordered at all times, on periodic domains and between walls with bounce-back, Neumann and interpolated bounce-back conditions; on periodic domains and in closed domains with bounce-back the sum over the cells and the velocities of the differences of the populations never increases. Hence the total variation does not grow, in any direction: no new oscillations, and the numerical solution of a scalar conservation law depends continuously on the initial data. A scheme whose equilibria are not monotone does increase some distance.", "quantifier": "all such schemes (nonlinear fluxes included), sets of admissible values, domains in dimensions 1 to 3, process grids and schedules, both algorithms, all pairs of initial states, all numbers of steps", "why_tests_cant": "A test compares one pair of runs; a wrong sign or a wrong index which still conserves the sum shows only on some pairs, and the claim is on all of them and at all times.", "anchors": ["pylbm/simulation.py:393-426", "pylbm/algorithm/base.py:404-549", "pylbm/algorithm/pull.py:11-59", "pylbm/boundary.py:400-560", "pylbm/scheme.py:464-531", "demo/1D/burgers.py:1-160"]}
{"id": "C111", "title": "The Poiseuille flow driven by a source term is computed without error for one value of the product of the relaxation parameters", "statement": "For a scheme with linear equilibria and constant source terms, a parabolic field of conserved moments across a channel whose curvature balances the source is a steady state of the code: one step gives it back exactly, and the conserved moments which are read are the parabola plus half of what the source adds in one step. Between two walls with bounce-back halfway between the cells, a run which starts from these populations keeps them for ever, on any number of processes, if and only if the relaxation parameters satisfy one relation on the links which cross the channel; with one parameter sp for the even moments and one parameter sm for the odd ones, and the source on the momentum alone as source_terms is used in the demos, it is (1/sp-1/2)(1/sm-1/2) = 3/8 for D2Q9. When all the moments which are not conserved are even, no parameter is right.", "quantifier": "all linear schemes, curvatures, forces, mesh sizes, relaxation parameters, channel widths, process grids and schedules, both algorithms, all numbers of steps", "why_tests_cant": "A test compares a run with the analytical solution at a tolerance; the claim separates the parameters for which the wall is exactly where the user puts it from those for which it is displaced, for all of them, and a convergence test sees only an error which decreases.", "anchors": ["pylbm/boundary.py:400-560", "pylbm/algorithm/base.py:404-549", "pylbm/simulation.py:393-426", "pylbm/scheme.py:464-531", "demo/2D/Poiseuille.py:1-146", "demo/2D/air_conditioning.py:112", "demo/2D/Rayleigh-Benard.py:194"]}
{"id": "C112", "title": "A simulation whose data do not depend on some coordinates computes what the simulation in fewer dimensions computes", "statement": "In a box without element which is periodic along all the axes but at most one, when the initial populations depend on the coordinate along that axis only and the walls impose values which depend on time only, the populations after any number of steps depend on that coordinate only, on any number of processes, and they are those of a scheme on a line. Two simulations of different dimensions, velocities and moments whose sums of populations have the same transport and collision on the line hold equal sums for ever: D2Q9 with the quadratic equilibria of the demos gives the density and the momentum across the channel of D1Q3 when the energy and X2-Y2 have the same relaxation parameter, and only then are the sums over y closed. As a consequence the Poiseuille flow of D2Q9 is exact with the quadratic equilibria too.", "quantifier": "all channels, schemes (nonlinear equilibria, sources, relative velocities), methods of the boundaries but NeumannX/Y/Z, initial states, process grids and schedules, both algorithms, all numbers of steps", "why_tests_cant": "A test compares two runs of one case up to rounding; the claim is about all of them, and a dependence on the storage order, on the axis or on the process grid would show only in some.", "anchors": ["pylbm/simulation.py:393-426", "pylbm/algorithm/base.py:404-549", "pylbm/boundary.py:78-330", "pylbm/boundary.py:400-825", "pylbm/domain.py:226-330", "demo/2D/Poiseuille.py:54-100"]}
{"id": "C113", "title": "The numbers chosen as labels do not matter", "statement": "When the labels of the faces of the box and of the elements are renamed (injectively, keeping -1, -2 and 999) together with the keys of boundary_conditions, the domain has the same fluid cells, distances and normals, the boundary conditions compute the same populations, and the simulation is the same on every process. With NeumannX, NeumannY, NeumannZ the populations which enter through the outlet are equal to those of the neighbour along the axis, at the edges of the outlet too.", "quantifier": "all boxes, elements, methods, values, injective renamings, process grids, schemes", "why_tests_cant": "A test uses one numbering; whether the result depends on it can only be seen by comparing all the numberings on cases where the methods meet at an edge.", "anchors": ["pylbm/boundary.py:78-160", "pylbm/boundary.py:826-895", "pylbm/domain.py:262-301", "pylbm/domain.py:463-642", "pylbm/simulation.py:383-391", "demo/2D/Poiseuille.py:62-104"]}
{"id": "C114", "title": "Bounce-back and anti bounce-back walls of a box are mirrors", "statement": "In a box without element, with velocities along the axes by at most one cell (D1Q2, D1Q3, D2Q4, D2Q5, D3Q6, D3Q7 and the vectorial schemes made of them), whose axes are periodic or closed by walls with bounce-back or anti bounce-back (plain or interpolated) which impose nothing, a simulation computes exactly what the periodic simulation of the box doubled along the closed axes computes from the initial populations and their mirror images (with the sign of anti bounce-back), if the collision respects the mirrors: at all times, in the cells of the box the two simulations hold the same populations, and the other cells hold their images.", "quantifier": "all such boxes, signs on the walls and schemes, nonlinear collisions which respect the mirrors, initial states, process grids and schedules, all numbers of steps", "why_tests_cant": "A test compares two runs of one case; a wall displaced by a fraction of a cell or a wrong direction at an edge where two walls meet shows only for some initial states.", "anchors": ["pylbm/boundary.py:78-330", "pylbm/boundary.py:400-640", "pylbm/domain.py:226-330", "pylbm/simulation.py:383-426", "pylbm/algorithm/base.py:404-549"]}
{"id": "C115", "title": "The quantities which a periodic simulation conserves besides the declared ones", "statement": "In a periodic box with an even number of cells along an axis, the alternating sum along that axis of a conserved moment which only uses velocities with an odd component along it (the momentum along x of D1Q3, D2Q9, D3Q19; the density of D1Q2) changes its sign at each time step and keeps its size for ever, whatever the equilibrium and the relaxation parameters: no viscosity damps it. Only these moments have that property. When all the velocities change the colour of a periodic colouring of the cells in the same way (D1Q2, D2Q4, D3Q6 and the checkerboard) the colours evolve as independent simulations, each with its own totals.", "quantifier": "all schemes, equilibria, relaxation parameters, sizes, process grids, schedules, backends and numbers of steps", "why_tests_cant": "the number of cells, steps and initial values is unbounded, and a test would have to know which sums to look at", "anchors": ["pylbm/algorithm/base.py:BaseAlgorithm.one_time_step", "pylbm/simulation.py:Simulation.one_time_step", "pylbm/storage.py:Array.update"]}
{"id": "C116", "title": "Only differences of density matter when the equilibrium says so", "statement": "If adding a constant to the conserved moments adds a constant to the equilibrium (the density of the schemes of the demos for the equations of Navier-Stokes, whose quadratic terms are divided by a reference density), then adding a uniform state to the initial values, and the same state to the values imposed on the walls, adds it to the populations of every fluid cell after any number of steps: the velocity, and the differences of density, do not depend on the reference. With bounce-back, interpolated or not, and Neumann conditions the walls need not be changed when the state added is at rest. The schemes with quadratic terms divided by the density do not have this property, for any state which changes the density.", "quantifier": "all schemes whose equilibrium has that property, nonlinear or not, relaxation parameters, sources, walls, process grids, schedules, backends and numbers of steps", "why_tests_cant": "the state added, the initial values and the number of steps are unbounded; a test compares two runs for one state", "anchors": ["pylbm/algorithm/base.py:BaseAlgorithm.one_time_step", "pylbm/simulation.py:Simulation.one_time_step", "pylbm/boundary.py:BoundaryMethod.prepare_rhs", "pylbm/simulation.py:Simulation.initialization"]}
{"id": "C117", "title": "The options of the command line are read, and the user's own words left alone", "statement": "The numbers given with -npx, -npy and -npz and the level given with --log, in two words or with an equals sign, and --monitoring, are read wherever they are on the command line of the user's program, the last one if a direction is given several times and 1 (or WARNING) if it is not given; a value which is not a number or not a level is refused; the other words of the command line, and everything after --, change nothing provided that they have nothing in common with the options of pylbm. It is false for an option -n or -np of the user's program (the command line is refused), for the options which begin with -h (the program ends when pylbm is imported), and for a number glued to its option, which is dropped without a message.", "quantifier": "all command lines made of words of the user and options of pylbm, in any order and number, and all decimal numerals", "why_tests_cant": "the words, their order and their number are unbounded; a test passes a few command lines", "anchors": ["pylbm/options.py:options", "pylbm/mpi_topology.py:MpiTopology.set_options", "pylbm/__init__.py"]}
{"id": "C118", "title": "From the command line to the cells of each process", "statement": "Without numbers of processes on the command line, each process has a region of the grid and each cell is in exactly one of them, whatever the number of processes and the dimension. With numbers, that is so exactly if those of the directions of space are positive and their product is the number of processes, and then the regions are those of the grid of processes asked for; with a smaller product exactly the processes whose rank is not smaller than the product fail, with a larger one all of them. The number of a direction which the problem does not have is not ignored (-npz 2 in dimension 2 makes all the processes but one fail), and 1 in each direction cannot be asked for.", "quantifier": "all command lines of C117, numbers of processes, dimensions up to 3, numbers of cells, and all functions Compute_dims which do what MPI says", "why_tests_cant": "the number of processes and of cells is unbounded; a test runs on one machine with a few processes", "anchors": ["pylbm/mpi_topology.py:MpiTopology.__init__", "pylbm/mpi_topology.py:MpiTopology.get_region", "pylbm/options.py:options", "pylbm/domain.py:Domain.construct_mpi_topology"]}
{"id": "C119", "title": "The views of a figure are where they are asked for", "statement": "In a figure of several rows and columns fig[i, j] makes a view in row i and column j the first time, and returns the same view afterwards; different places give different views, and an index outside is an IndexError. The same holds for fig[i] in figures of one column. With several columns fig[i] is drawn at another place than row i, fig[i, 0] then returns that view, and its place gets a second view on top of it; in figures of one row only fig[0] can be asked for with one integer.", "quantifier": "all sizes of figures, sequences of accesses and indices, negative ones included", "why_tests_cant": "the sizes and the accesses are unbounded, and the pictures are only looked at", "anchors": ["pylbm/viewer/matplotlib_viewer.py:Fig.__init__", "pylbm/viewer/matplotlib_viewer.py:Fig.__getitem__"]}
{"id": "C120", "title": "A periodic box repeated, and what the verdict on stability says about other boxes", "statement": "A simulation on a periodic box whose sizes are multiples of those of another box, started from copies of its initial values, holds copies of its values after any number of steps; in particular values which do not depend on one coordinate stay so and are those of one row of cells. So when Stability says that a scheme with linear equilibrium is not stable with n0 wave vectors in each direction, there are initial values for which the computed ones are unbounded on every box whose sizes are multiples of n0; when its exact test says stable they are bounded on every box whose sizes divide n0. Nothing is said about the others: for each n0 there is a scheme which is declared stable and is unbounded on a larger box.", "quantifier": "all schemes (nonlinear ones for the copies), sizes, process grids, schedules, backends, numbers of steps and of wave vectors", "why_tests_cant": "the sizes, the number of steps and the initial values are unbounded", "anchors": ["pylbm/algorithm/base.py:BaseAlgorithm.one_time_step", "pylbm/simulation.py:Simulation.one_time_step", "pylbm/analysis/stability.py:Stability.eigenvalues"]}
{"id": "C121", "title": "The solution tends to its mean", "statement": "Consider a scheme with one conserved quantity, a linear or affine equilibrium which does not increase the quadratic energy of C98, and relaxation parameters strictly between 0 and 2, on a periodic box. If the differences of the velocities, with the periods of the box, generate all the cells, then for all initial values the populations tend geometrically to those of the uniform equilibrium with the same total of the conserved quantity, at a rate which depends only on the scheme and the box. If they do not, there are initial values for which after any number of steps some cells hold one equilibrium and other cells another: D1Q2 reaches the mean from all initial values exactly if the number of cells is odd. In a box closed by bounce-back walls, with velocities along the axes, a velocity at rest (D1Q3, D2Q5, D3Q7) and a collision which respects the mirrors, the populations tend to the mean in the same way. If the value 0 is imposed by anti bounce-back across one axis at least, they tend to the equilibrium whose conserved quantity is 0, whatever the initial values. With any values imposed on the walls, which may change with time, two simulations of a scheme with a linear equilibrium come together geometrically, if anti bounce-back is used across one axis at least or if their initial totals are the same: the initial values are forgotten. If the imposed values do not change with time and anti bounce-back is used across one axis at least, all simulations approach geometrically one state, which a simulation started from it keeps; if the imposed values have a period of p time steps, they approach one sequence of states of period p. A flow which the scheme and the walls keep exactly (C107), such as the steady conduction between two ends, is approached geometrically by all simulations under the conditions for two simulations to come together. In particular, between anti bounce-back walls on which an affine field is imposed, a linear scheme with an even equilibrium carries the conserved quantity of every cell to the affine field, without any error left from the grid or the relaxation parameters.", "quantifier": "all such schemes, boxes, process grids, schedules, backends, initial values and numbers of steps", "why_tests_cant": "a limit for an unbounded number of steps, and all initial values", "anchors": ["pylbm/algorithm/base.py:BaseAlgorithm.one_time_step", "pylbm/simulation.py:Simulation.one_time_step", "pylbm/storage.py:Array.update", "pylbm/boundary.py:BounceBack", "pylbm/boundary.py:AntiBounceBack"]}
{"id": "C122", "title": "Every output of a series has its own file", "statement": "After any series of outputs with H5File(topology, name, path, timestep) whose names have neither dot nor slash, the file path/name_timestep.h5 holds what was stored last under that path, name and time step, whatever the other outputs, and the description written by save refers to the file of its own data. Outputs with different names never share a file, and the default path can be used.", "quantifier": "all series of outputs, names, paths, time steps, data and contents of the disk", "why_tests_cant": "the names, the numbers and the length of the series are unbounded; tests write a few files", "anchors": ["pylbm/hdf5.py:H5File.__init__", "pylbm/hdf5.py:H5File.save", "pylbm/hdf5.py:H5File.add_scalar"]}
{"id": "C123", "title": "The wave vectors sampled by the stability analysis", "statement": "Stability.eigenvalues(consm0, n_wv) samples, for a scheme in any dimension, all the wave vectors of a periodic box, each of them once: the box with n_wv cells in dimension 1, and with the largest number of cells in each direction whose power does not exceed n_wv in the other dimensions; its verdict is the one for this box. With more wave vectors the analysis is not less precise: an instability found with some number of wave vectors is found with a larger number.", "quantifier": "all schemes, dimensions, tolerances and numbers of wave vectors", "why_tests_cant": "the numbers of wave vectors and the schemes are unbounded; tests use a few schemes in dimensions 1 and 2", "anchors": ["pylbm/analysis/stability.py:Stability.eigenvalues"]}
