# Formal model of pylbm — design

The code under study is `/repo/pylbm` (python, read as text; never built or run here).
The model is written in Lean 4 (4.33.0) with Mathlib and lives in `lean/Verif`.

## 1. Layout

For each area `X` there are up to four files under `lean/Verif/X/`:

* `Model.lean`  — the functions of the code, branch by branch, with the cited lines;
* `Spec.lean`   — the specification, written without importing the model;
* `Lemmas.lean` — helper lemmas;
* `Props.lean`  — the property theorems, each followed by a non-vacuity `example`.

Areas: `Velocity` (numbering, permutations, symmetric), `Stencil`, `Mpi` (regions),
`Storage` (layout, loops, interior), `Halo` (exchange and its schedules), `Domain`,
`Geometry` (elements, distances), `Boundary`, `Scheme` (moments, collision, reorder),
`Sim` (time step, cache, conservation, decomposed run), `Stability`, `Hdf5`,
`Monitor`, `Util`.

## 2. Trusted base

* Lean's kernel, and the axioms `propext`, `Classical.choice`, `Quot.sound`
  (no own axiom, no `sorry`, no `native_decide`, no `bv_decide`).
* The reading of the Python text: each definition cites file and lines.  Nothing ties the
  model to the code mechanically.
* Arithmetic: Python floats are modelled by exact arithmetic (a commutative ring for the
  linear algebra, a linearly ordered field or the reals for the geometry, the complex numbers
  for the stability analysis).  Rounding is modelled only in C101: every operation has a relative
  error of at most `u` (no overflow, no underflow), the time `t` and the arithmetic of the
  boundary conditions are exact or counted as disturbances.
* NumPy, SymPy, mpi4py, h5py, Cython, loopy are modelled by the documented behaviour of the
  primitives which the code uses (slices, `argsort`, `searchsorted`, `union1d`, `linspace`,
  matching of messages by source/tag, ...), and so is the import system of Python (C92).

Not modelled: plotting (`viewer`, `visualize`, `vtk`), logging, templates, the text of generated code
(only the meaning of the statements is, except for C75, C76, C79 and C83), the GPU memory transfers (except for C85), the `cerberus` engine of the
validator (its rules are transcribed from its documentation for C91), the reading of STL files.

## 3. Properties: model, proof, or reason

| id | modelled | proof plan |
|----|----------|-----------|
| C01 | `_set_num`, `_set_coord`, 1D branch | parity case split |
| C02 | table `_R2`, `_set_num`, `_set_coord` 2D | shells `(2n-1)^2 .. (2n+1)^2`, octant case split |
| C03 | the 3D enumeration as a list | no duplicates + exhaustive: sorted absolute values determine the loop indices |
| C04 | `permute_in_place` as a loop on lists | the step computes the lexicographic successor among rearrangements |
| C05 | `get_symmetric` | case split on dimension and axis |
| C06 | `Stencil.__init__` on lists of numbers | sorted union; prefix sums; `searchsorted` |
| C07 | `Stencil.get_symmetric` | offsets of the schemes; involution |
| C08 | `is_symmetric` | negation (only the last scheme counts) + partial for one scheme |
| C09 | `vmax` | negation for one-sided stencils + partial for symmetric stencils |
| C10, C11 | `get_region_indices_`, `get_region` | closed form of the prefix sums |
| C12 | `get_directions` | finite complete table |
| C13 | `Array.__init__` (shape, transposition), `set_order` | permutation algebra, row-major offsets |
| C14 | `space_idx` + `indexed` | negation for permuted space axes + partial for order-preserving `sorder` |
| C15 | `Array.update` axis by axis on a process grid | induction on the axes, invariant "periodic on the axes done" |
| C16 | asynchronous small-step semantics of the update | invariant of all reachable states; progress |
| C17 | Python slice semantics of `_in` | negation for width 0 + partial for positive widths |
| C18, C19 | `create_coords`, `linspace` | field arithmetic; C19 negation + bound actually enforced |
| C20 | `__add_init` as loops over axes, velocities, layers | fold invariant: lexicographic minimum over (distance, axis) |
| C21 | `__add_elem` (in_or_out part) | induction on the list; slices contain the element's box |
| C22 | `clean` | pointwise |
| C23 | `__add_init`/`__add_elem`/`clean` per cell | invariant over the list of elements |
| C24–C27 | `elements/utils.py` | real algebra |
| C28, C29 | `point_inside`, `get_bounds` | real algebra; cylinders: negation + partial |
| C30 | `BoundaryVelocity`, `set_iload` | bijection between links and ghost positions |
| C31 | `prepare_rhs` | algebra |
| C32 | `BounceBack` + streaming | permutation of the finite set (velocity, cell) |
| C33, C34 | the formulas of `generate`/`set_rhs` | algebra; negations for Bouzidi variants |
| C35 | loop of `generate` as a fold | commutation; negation for the variant reading `f` |
| C36 | `_permute_consm_in_front` | negation + partial for increasing positions |
| C37 | block matrices | matrix algebra |
| C38 | relaxation/equilibrium as sequential assignments | induction on the assignments |
| C39 | both algorithms, containers with and without aliasing | equality of functions; negation for the non aliasing containers |
| C40 | fold over cells | commutation |
| C41 | torus, `one_time_step` | sum reindexing, induction on steps |
| C42 | local arrays + halo update + step, `list_of_labels`, boundary methods | simulation relation, induction on steps; walls: translation of the entries of the boundary methods between the local and the whole domain |
| C43, C44 | state machine of `Simulation` | invariant over operation sequences; C44 negations + partial |
| C45 | `source_term_local` as sequential assignments | negation + partial (triangular coupling) |
| C46 | relative velocity collision of both algorithms, matrix given in place of the polynomials | matrix algebra; the collision in the moving frame as a separate specification; negations for Base, for a given matrix, for the parameters of the conserved moments |
| C47 | `recursive_sub` on terms | rank induction |
| C48 | trace recursion | derivative of the characteristic polynomial, adjugate coefficients |
| C49, C50 | `is_S`, `is_svN`, `is_vN` | Schur–Cohn and Miller by algebraic identities |
| C51 | amplification matrix | algebra |
| C52 | `H5File.set_grid`, slices, writes, the mesh and the sizes in `save` | prefix sums, partition; the text of the XDMF file is reduced to its numbers |
| C53 | `Monitoring` on call trees | induction on call trees; negation for recursion and exceptions |
| C54 | `hsl_to_rgb` | piecewise algebra |
| C55 | `print_progress` | arithmetic of round-half-even |
| C56, C58 | decision logic | case split |
| C57 | `update_feq` state machine | induction on steps |
| C59 | `__add_elem` on the library shapes | invariant over the list; negations (re-opened cells, centre on a border, periodic faces, corners of channels) |
| C60 | `normal` returned by the distances | gradient of the quadric; cylinders: negation, right circular cylinders partial (`C60_cylinder_partial`) |
| C61 | the slices of `__add_elem` | negation + partial (elements not just before the box) |
| C62 | `__init__` on the local and on the whole grid | view-free form of one element step, induction on the list; negation across interfaces |
| C63 | `Stability.eigenvalues` verdict | eigenvalue of modulus above one gives a plane wave which grows; bounded powers of the sampled matrices and discrete Fourier sums bound every run (`_partial`: exact test) |
| C64 | labels of `distance`, face order of `_visualize` | case split on the first side met; negations (documented order, drawn colours) |
| C65 | `__add_init`, `__add_elem`, with the shapes of the plane and the solids | provenance invariant over the list; instantiated with the distances, labels and normals of C26, C27, C60, C64 |
| C66 | `__add_elem` | induction on the list; negation (thin wall added before the block behind it) |
| C67 | `EquivalentEquation` | Taylor expansion of the transport, change of variables which decouples the conserved moments up to order 3, discrete Gronwall; nonlinear schemes: the smooth functions of the time step, of time and space as an algebra, ideals of the functions of order `dt^n`, expansion of one step modulo `dt^3` and its converse (division by `dt`), `ℓ¹` stability, or a stability structure (quadratic forms depending on the state which the derivative of the collision at the equilibria does not increase), energy estimate and continuation argument; initial layer (a geometrically decreasing correction of order `dt`) for runs started at equilibrium; negation (source terms) |
| C68 | `Simulation.initialization`, coordinates of processes | invariant of the loop over the dictionary; chained with C42 |
| C69 | views of the moments in the NumPy code | simulation relation between the statements with and without views; negations (momenta, sources) |
| C70 | arguments and names of the generated functions, `_get_args` of the algorithms and of the boundary methods, `locals()` and `exec` of CPython before and from 3.13 on, reserved words of the printers | case analysis on the symbols of each routine; negations (rates with moments, coordinates, names of extra parameters, reserved words, Python 3.13) |
| C71 | STL meshes: `intersection`, `distance` | Cramer's formulas; invariant of the loop over the triangles; independent notion of a region bounded by a mesh (witness: a tetrahedron, through a theorem on convex polyhedra) |
| C72 | STL `point_inside` | the first triangle met decides by the sign of its normal; negation with a half line through an edge |
| C73 | `check_isfluid` in `one_time_step` | simulation relation restricted to the fluid cells: the boundary conditions shield them from the others (through C59) |
| C75 | `_print_For`, `dump_code`, `indent_code` | text as lists of characters; the grammar of Python blocks as a relation, existence by induction on the nesting, uniqueness by the indentations |
| C76 | `_print_Pow`, `_print_Rational`, `_hprint_Pow`, Cython `_print_Piecewise`, with SymPy's `_print_Add`, `_print_Mul`, `parenthesize` and `precedence` transcribed from its documentation and known source | expressions in the form SymPy keeps, tokens; the grammar of Python with values as a relation, uniqueness by a left-to-right reading, the value by mutual induction on the expression |
| C77 | `Scheme.__init__` (lists of parameters and polynomials), `_get_equilibrium`, `_check_entry_size`, blocks of `_create_moments_matrices` | lists cut by offsets, product of block matrices restricted to a block; expressions as functions of the conserved moments, `simplify` as the identity |
| C78 | `BounceBack`, `__add_init`, `__add_elem`, `one_time_step` together | the transport with reflections is a permutation of the populations of the fluid cells when every open link is open from both ends (`Sealed`), which is proved for closed boxes with obstacles and for boxes with periodic directions; counterexamples for interpolated bounce-back and for long velocities |
| C79 | `transform_expr`, `reorder`, `parse_expr`, `source_term_local` (dictionary of locals, default indices) | texts as lists of tokens, read by the grammar of Python with subscripts; the rewriting of tokens is shown to commute with the reading; the text printed by SymPy for the expression is an input (hypothesis: it reads as the expression), uniqueness of the reading is not shown again (see C76) |
| C80 | the boundary methods, `one_time_step` together | runs of the parallel simulation (C73): the boundary conditions on a uniform array are evaluated with the condition `Agrees` of each method on the imposed values; corollaries for a fluid at rest and for an imposed uniform flow; counterexample for the interpolated methods with a flow |
| C81 | `one_time_step`, halo exchange, collision | two runs on two decompositions related by a map of the cells and a permutation of the velocities; translations, mirrors and quarter turns of the box; a matrix acting on the moments gives the symmetry of the collision |
| C82 | `BounceBack`, `BouzidiBounceBack`, `Neumann`, collision, `one_time_step` | sets of values closed under weighted means are kept by the passive walls (weights of C34, distances of C23) and by the collision with one relaxation parameter in [0, 1]; counterexample for anti bounce-back |
| C83 | `LoopyCodePrinter.doprint`, `_print_For`, `_print_Assignment`, the equations of `one_time_step_local` | lines of the kernel, read as documented by Loopy (names made from the prefix, shell patterns); all orders of execution compatible with the dependencies; at most ten equations keep the digits apart; the assignments of one equation commute |
| C84 | `Array.update` with `gpu_support`, `Array.generate` (storage.py 307-330, 370-421) | the assignments of the kernels `update_x`, `update_y`, `update_z`, in any order inside a kernel; the order of the axes in memory is that of C13 and is dropped; the device, its queue and the kernels' wrapping by Loopy are not modelled |
| C85 | `Array.__init__`, `__getitem__`, `__setitem__`, `_in` with `gpu_support` (storage.py 104-157), `Simulation.one_time_step` (exchange) | two copies per array, arbitrary kernels on the device; `cl.array.to_device` and `get` are trusted to copy; reads copy the whole array |
| C86 | the construction of the domain (C18-C23), the boundary conditions (C30-C34), the parallel time step (C42, C73) | two whole problems, one the image of the other by the reflections of any set of axes; the collision is any kernel which commutes with the permutation of the velocities (`C81_collision` gives a criterion); the shapes of the plane, the spheres, ellipsoids, cylinders and parallelepipeds are proved to be mirrored (`C86_shapes`, `C86_solids`, `C86_cylinders`, `C86_parallelepipeds`); the STL parts are a hypothesis (`Elem.Mirrored`) |
| C87 | `STLElement` (C71, C72) inside the construction of the domain (C21-C23) | `np.inf` is any value larger than 999; the half lines from the points of the grid do not go through edges or vertices of the mesh (otherwise C72 fails); the region and its mesh are related by `Stl.Bounds` |
| C88 | the runs of C42 and C73 with other initial values and other imposed values | as C42 and C73; `C88_separated` needs conditions which read only the part considered (true of the conditions which read the cell of the link, `oneCell_source`) |
| C89 | the construction of the domain (C21-C23) with the library of elements, the coordinates, the scheme (C36, C38) and the runs of C73, in two systems of units | as C73; the imposed values enter as populations; `C89_cells_partial` for sides which are multiples of the step; the normals of cylinders, the sides which are not multiples of the step and the test of the axes depend on the unit (`C89_*_negation`); `C89_matrices` for homogeneous polynomials |
| C90 | the collision (C38), the boundary methods with their values (C33, C57), the initial values (C68) and the runs of C73, in three runs | the assignments of the generated code and of the boundary loops are linear in the arrays and in the imposed values; `Combines` is the condition on the scheme (`C90_schemes`: linear, or affine with coefficients of sum 1); `C90_difference` adds the bounds of C82 |
| C91 | `validate` with its schema, `rec_dict`, `rec_list`; the reads of the dictionary in `get_box`, `Geometry`, `Stencil`, `Domain`, `Scheme`, `Boundary`, `Simulation` | `Input/*`: values as a tree of Python kinds; the schema as fields with a check of the value; the rules of Cerberus (outside of the repository) are transcribed from its documentation; the errors of Cerberus are any tree with at least one error per key; the text of the report is a list of lines (indentation, prompt, key, first error); the domain enters through its labels and the points of the labels |
| C92 | `CodeWrapper` (autowrap.py 35-90), `Generator.compile` | files, `sys.path` and `sys.modules` as a state; the import system of Python is transcribed from its documentation (order of the path, extensions before sources, validity of the byte code); refinement of a map from directories to codes, by induction over the simulations; other processes, the build tool and the loader of shared libraries are not modelled |
| C93 | `Monitoring.print`, the nesting of the monitored functions | model of C53; the nesting in pylbm is a table (`Inside`) with a rank; `argsort` is any sort |
| C94 | indices of `f` in the generated boundary functions (`istore`, `iload`), loops over all the cells and over the inner cells | indices as lists in the order of the storage; the other arrays (`rhs`, `dist`, `istore`) have the length of the loop and are not modelled |
| C95 | `Stability.eigenvalues` up to the numerical matrix, the sliders of `visualize` | expressions and `recursive_sub` of C47; the conversion to floats fails exactly when a symbol is left; drawing not modelled |
| C96 | `visualize` of the plane elements, spheres, ellipsoids and round cylinders, `Geometry.visualize` and `Domain.visualize` (2D patches, box and colours in 3D, markers, distances, normals), `Stencil.visualize` | exact real geometry; what matplotlib draws for `Ellipse` and `Polygon` is specified from its documentation (`PictureSpec`); `scale = 1`; colours are one channel; 1D pictures, texts of element labels, sizes and fonts not modelled |
| C97 | the whole run (model of C41, C78) with `source_term_local` | totals over the cells of all the processes; without relative velocity the sources of the other moments are arbitrary (`C97_no_source`, `C97_rate`, `C97_constant`, also with walls at rest); systems of sources are partial (triangular sources, as C45); sources do not depend on the time or on the place |
| C98 | the whole run (model of C41, C73, C78), `verdict` (C63) | energy = weighted sum of squares of the populations (`energy`), hypotheses on the scheme in `Dissipative`; the difference of two runs, so that the imposed values on the walls are arbitrary; no source, no relative velocity; walls: bounce-back and anti-bounce-back on all labels, weights which are the same for opposite velocities |
| C99 | `_print_Piecewise`, `_print_Relational`, `_print_And`, `_print_Or`, `_print_Not`, `_print_Min`, `_print_Max` of `NumPyPrinter`, with `numpy.select`, `ufunc.reduce`, `amin`, `amax` and broadcasting | values are scalars or arrays over the cells (the only shapes in the generated code, since coordinates never reach it, C70); the text of the calls is not read again (C76); specification: value at one cell, `nan` = `none` |
| C100 | the constructors of `Stencil` and `Scheme` (`_permute_consm_in_front`) on reordered lists, the kernels, the boundary methods and the runs of C73 | nothing new in the model; specification: `Reordered`, `SameScheme`, `Sten.relabel`, `SameWalls` (two inputs which differ by permutations of the moments, the distribution functions, the conserved moments and the numbers of the schemes); the polynomials and their matrices are those of C89/C39 |
| C101 | `one_time_step` and `boundary_condition` (model of C41, C73, C78, C98), the expressions of `f2m_local`, `relaxation_local`, `m2f_local` as trees of constants, sums and products | disturbed runs `ERun`: after each step the populations of an owned fluid cell are related by `R` to the exact ones, the other contents of the arrays may become anything; `Term.Rounds`: a relative error of at most `u` in each constant, sum and product, which may be different each time; the relaxed moments are arbitrary numbers in `C101_conservation`; `C101_balance` has arbitrary further variables (relative velocity, values of sources) and errors of the boundary values; 15-digit constants of the generated code (C79) are constants with a relative error |
| C102 | `Simulation.__init__` (`t`, `nt`, `initialize`), `_initialize`, `initialization` with arrays as values, the setters of `F_halo` and `m_halo`, `m2f`, `one_time_step` | the assignments `sol.t`, `sol.nt` (`Simu.setTime`); the first step of a simulation with `initialize=False` (`Simu.firstStep`); the arrays are taken cell by cell (an array of another shape is refused by NumPy and not modelled); writing the files is C52; rounding is not modelled |
| C103 | the constructors of `Stencil` and `Scheme` on a dictionary and on a part of it, `Domain` for two stencils with other velocities and halos, the kernels, the boundary methods and the runs of C73 | nothing new in the model; specification: `Part`, `PartScheme` (the matrices couple nothing else to the part; its equilibria, parameters, sources and relative velocity only use its moments), `Entry.within`, `PartSten`, `SameBox`, `SamePlace`, `PartWalls`; the values imposed on the walls are a function of label, time and point for each distribution function (what the user's function does with the moments is C57) |
| C104 | `Scheme.__init__` with the matrices as objects in memory (`self.M = scheme[0]["M"]`, `row_swap` in place), `_get_equilibrium`, `_get_conserved_moments`, `_permute_consm_in_front` | specification: each object built in a sequence has the attributes it would have alone, and the matrices of the user keep their content; frame rule for the memory, induction on the sequence; universal negations for a matrix whose conserved moments are moved |
| C105 | `_get_args` and `call_genfunction` (arguments taken in `extra_parameters`, missing ones are errors), the one-pass `M.subs(param.items())` against `recursive_sub`, `Simulation.dt` (cached), `prepare_rhs`/`update_feq` and all the public operations with changes of the parameters in between | specification: value of the formula for values which agree with the dictionary and the arguments; each operation is the one of the simulation built with the current values; induction on the sequence of operations with an invariant on the arrays of the walls; universal negations (time step, walls without `time_bc`, moments already read, order of the dictionary) |
| C106 | `CodeWrapper.__init__`, `wrap_code`, `_process_files`, `CodeGen.write` as sequences of system calls of several processes on one file system (`mkdtemp`, `access`, `mkdir`, `open` which empties the file, writes at the position of each process, build, import, `rmtree`) | specification: each process gets the whole text, for all schedules; frame rule for own directories, invariant "each place of the file is right or will be written" for a common directory with a barrier; universal negations for a common directory without barrier |
| C107 | the whole run (C42, C73, C78), the boundary methods, `Domain` (links, distances, labels) | specification: a flow is a function of time and space; `Solves` (transport and collision), `Returns` (what a method must give on one link, with the formula of C74); affine flows, linear schemes; equivalences for each method; negation for the corner cells |
| C108 | the whole run (C42, C73, C78), the boundary methods bounce-back and anti bounce-back | specification: `Opposite` velocities, `Reversed` populations, `Reversible` schemes (parities, relaxation parameters), `ReversedWalls` (same geometry, values in the opposite order of time); the collision is its own inverse and the transport with its walls is undone by itself on the reversed populations; converse on uniform states for other relaxation parameters; negation for the interpolated bounce-back |
| C109 | `_create_moments_matrices` (polynomials at the velocities, inverse), the cell kernel (C45, C46), the whole run (C42, C78) | specification: `NewMoments` (moments, conserved moments and equilibria combined by matrices `B` and `C`), `SameRelaxation`; equality of the collisions and, conversely, necessity of `SameRelaxation` (deviations from the equilibrium are arbitrary); induction on the steps for the runs; a relative velocity as a change of moments at each point; negation for coupled source terms |
| C110 | the cell kernel (C45, C46), the whole run (C42, C73, C78), the boundary methods | specification: `distance` (sum of the differences of the populations), `MonotoneScheme` (keeps an admissible set, non decreasing, keeps the sum); the collision does not increase the distance (Crandall and Tartar: compare both with the larger one); the transport moves the terms of the sum, a wall with bounce-back gives one of them back; translations of a run for the total variation; converse for equilibria which are not monotone; negations for anti bounce-back (order) and interpolated bounce-back (distance) |
| C111 | the cell kernel with source terms (C45), bounce-back, the whole run between walls (C107) | specification: `parabola`, `delay` (a moment times 1/s - 1), `forcing`, `balance`; the populations of the steady flow are given explicitly (`parabolicFlow`) and the step gives them back; parity of the moments for bounce-back; the matrix of D2Q9 from its polynomials, as integers |
| C112 | the whole run in a channel (C107): domain, boundary entries, exchange, cell kernel with nonlinear equilibria | specification: `lineStream`, `lineRun` (a scheme on a line, with a wall or periodic at its ends), `Carries` (linear forms of the populations carried by the transport); the box has no element, components of velocities in {-1, 0, 1}, the axes after the one with walls periodic; NeumannX/Y/Z are left out (they read the cell along an axis); equilibria of D2Q9 with a constant reference density, as in the demos |
| C113 | `Domain.__init__` (box, elements, clean), `list_of_labels`, `Boundary.__init__` (order of the instances), the update of all the methods, the whole run | specification: `Grid.renamed`, `Elem.renamed`, `WallData.renamed` (the same data with other numbers), `Renaming` (−1, −2, 999 are kept); the domain is only renamed (`C113_domain`, every geometry); the boundary conditions are the same map if the renaming keeps the order of the labels (`C113_same_order`, all the methods) or if nothing is read where something is written (`C113_boundary_partial`; always true for BounceBack, AntiBounceBack, Neumann: `C113_one_cell`), and then the two problems have exactly the same simulations (`C113_runs_partial`); `C113_outlet`: NeumannX gives a zero derivative, at the edges when its class comes after the others. |
| C114 | the boundary methods `BounceBack`, `AntiBounceBack`, `BouzidiBounceBack`, `BouzidiAntiBounceBack` on the faces of a box, the links of the domain, the exchange of the halos, the whole run | specification: `tent`, `behind`, `fold`, `turned` (a cell of the doubled box seen in the mirrors), `mirrored`, `signs`, `reflectCell`, `images`, `HasImages`; walls and images: `C114_images` (the doubled periodic simulation keeps the images of the one with walls, any two process grids), `C114_restriction` (equality in the cells of the box), `C114_collision` (sufficient condition on the moments for the collision to respect a mirror). Cases: closed 3 × 4 boxes on two processes against 6 × 8 periodic boxes on two processes, D2Q4 with a nonlinear equilibrium and a relaxation parameter which depends on the density between bounce-back walls, diffusion with anti bounce-back across x and bounce-back across y. Not covered: diagonal or longer velocities (bounce-back reverses the tangential component too and gives back the population of the cell itself, which is no mirror: `C114_diagonal_negation`), imposed values other than zero, elements, sources |
| C115 | the parallel time step on periodic boxes (C42), conserved moments | colourings of the cells as additive maps with the period of the box; `C115_only` is the converse for one step |
| C116 | the parallel time step with walls (C73, C80, C90), construction of the initial and imposed values (C68, C32) | the equilibrium and the relaxation parameters are functions with the property `Shifts`; no relative velocity in `C116_collision`, any collision in `C116_shift` |
| C117 | `options()` (options.py) through `parse_known_args` of argparse, Python 3.11: classification of the words, abbreviations, `=`, `--`, conversion by `int`, order of the actions | the words are lists of characters; `int` is the decimal notation with a sign (no spaces, no `_`, no other digits); no message; `sys.argv` only |
| C118 | `MpiTopology.__init__`, `set_options`, `get_region` (C10, C11), after `options()` (C117) | `Compute_dims`, `Create_cart`, `Get_coords` are what the MPI standard says: positive factors of the number of processes (`Factors`), error or null communicator, row-major coordinates |
| C119 | `Fig.__init__`, `Fig.__getitem__` (viewer/matplotlib_viewer.py) | indices are integers, no slices; a view is its number and its place; `GridSpec` of matplotlib is its documented indexing (row after row with one integer) |
| C120 | the parallel time step on periodic boxes (C42), `verdict` (C63) | copies: any collision; the verdict: linear equilibrium, no source, no relative velocity, run in one array (`lbmRun`, which C42 equates with the processes) |
| C121 | the parallel time step on periodic boxes (C42), the energy of C98; in closed boxes the mirrors of C114, the flows of C107 | exact real numbers, one conserved quantity, affine equilibrium, no source, no relative velocity; periodic boxes, or boxes without element with bounce-back walls or anti bounce-back walls, and velocities along the axes (any imposed values for the difference of two runs) |
| C122 | `H5File.__init__` (names of the files, directory), the paths and references of `save` | strings as lists of characters; `os.path.splitext`, `os.path.exists`, `os.mkdir` and the mode `w` from the documentation of Python and h5py (`os.mkdir` is an oracle); from the opening to `save` one operation; time steps are natural numbers; induction over the series; the datasets are C52 |
| C123 | `Stability.eigenvalues`: the wave vectors in the order of the code, the verdict | exact `linspace` and integer square root (the rounding of `np.sqrt` and of the wave vectors is not modelled); the returned eigenvalues are not modelled; `UnboundLocalError` is `none` |
| C74 | the table of links, `prepare_rhs`, the classes of boundary conditions | the writes are at solid cells, the reads at fluid cells; the value of a link through the whole loop |

## 4. Disagreements between the code and its contract

Each item is a Lean theorem with a concrete witness (`..._negation`).

* **C08** `Stencil.is_symmetric` returns the answer of the last elementary scheme only.
* **C09** `Stencil.vmax` is the largest *signed* component, so a one-sided stencil such as `{0, -2}` gets
  halo width 0.
* **C14** `space_idx`/`indexed` do not permute the loop axes when `sorder` permutes the space axes.
* **C17** a halo of width 0 makes the interior view empty (`slice(0, -0)`).
* **C18** with a halo of width 0, `create_coords` keeps a single interior coordinate.
* **C19** boxes shorter than half a step (and than `dx²`) are accepted with no point (`C19_empty_negation`), boxes with the
  bounds in the wrong order with a negative number of points (`C19_reversed_negation`);
  the commensurability test compares an absolute error of a *number of cells* with `dx`.
* **C27** a start point on the curve returns -1 for a direction which leaves the element.
* **C29** bounding boxes: ellipses with vectors orthogonal only up to 1e-14; every parallelepiped,
  every triangular cylinder and the tall round cylinders have points outside of their box
  (`get_bounds` adds half of `w`, which is already a half height).  `Domain` only tests the cells
  around the box: in `C29_domain_negation` the cells at both ends of a solid parallelepiped stay
  fluid.
* **C59** a cell re-opened by a fluid element loses the links of the box; a centre on the border of a
  fluid element gets no distance; a solid element which touches a periodic face is not seen from the cells on the
  other side of the box (no boundary condition on these links).
* **C28** `CylinderCircle` is round, and `CylinderEllipse` has the half axes `v1` and `v2`, only when the two vectors are orthogonal (`C28_round_iff`, `C28_ellipse_iff`): `BaseCircle` computes the orthogonal vector and nothing uses it (base.py 158-162, cylinder.py 45-49), `BaseEllipse` writes a message and goes on.
* **C60** normals of cylinders are neither unit nor orthogonal to the surface (right circular cylinders: orthogonal, not unit, `C60_cylinder_partial`).
* **C61** an element which ends shortly before the (local) box makes the construction fail.
* **C62** halo cells beyond an interface between processes count as solid while elements are added, so
  a thin element across an interface is flagged on the process and not in the single run.
* **C64** the documentation of the cylinder announces the labels bottom, top, side; the code uses the
  sides first, then bottom, then top. `_visualize` of the parallelepiped and of the triangular cylinder
  draws the faces in another order than `distance` uses, so colours of labels are drawn on wrong faces.
* **C66** a link which crosses a thin solid wall keeps the distance of a block behind the wall when the
  wall is added first (its target is not yet solid at that moment); the result depends on the order.
* **C67** `EquivalentEquation` ignores the source terms (marked TODO in the source) and says nothing: the
  printed equation is then not the one approximated by the scheme.
* **C69** with NumPy a relative velocity given as a bare conserved moment (`"relative_velocity": [q]`) is a view
  of the array of the moments: `restore_conserved_moments` and the source terms change it in the middle of
  the step. The result differs from the C code and the momentum is not conserved.
* **C70** a relaxation parameter which depends on a conserved moment gives the function `relaxation` two
  arguments named `m` (no backend can compile the module); coordinates in the equilibrium, source terms or
  relaxation parameters stand for local variables which are never assigned (`coords()` is commented out) or
  for arguments which are never given; an extra parameter with the name of a local variable of `_get_args`
  (`dim`, `local`, `X`, ...) is silently replaced by that variable, and one named `ny`, `Y`, `nz`, `Z` in a lower
  dimension is removed by the second call of `locals()`. A parameter whose name is a reserved word of the printer
  (`int`, `static`, `const`, ...) is printed with a suffix and not found under the new name; the same for
  `lambda` with the value 0; keywords like `in`, `is`, `as` give a Cython function which is not compiled. From
  Python 3.13 on (`requires-python` allows it) `locals()` is a new dictionary at each call: no extra parameter
  and no array `iload0` of a boundary method is found, so no simulation with walls runs.
* **C30** the label 999 is the value used for "no boundary": with it values of fluid cells are
  overwritten.
* **C33** the interpolated bounce-back with a distance above 1/2 and a moving wall, and the interpolated
  anti bounce-back at any distance other than 1/2, disturb the uniform equilibrium of the wall.
* **C35** the interpolated anti bounce-back reads the ghost written by the opposite link in a channel of
  one cell: the result depends on the order, and differs between the sequential and vectorised loops.
* **C36** the successive swaps of `_permute_consm_in_front` use the original positions: when a conserved
  moment stands before its target (user order `c_1` before `c_0`), the wrong rows end in front.
* **C45** the components of the source terms are assigned in sequence, so coupled sources are not
  integrated by the explicit Euler method (the second one sees the first one updated); the argument
  `fraction_of_time_step` of `Simulation.source_term` is ignored.
* **C46** the Base algorithm does not restore the conserved moments: with a relative velocity and the
  parameter 0 for conserved moments, the momentum is doubled by one collision.
* **C46** when the matrix `M` is given in place of the polynomials, the relative velocity is silently ignored (identity
  translation matrices). With parameters other than 0 for the conserved moments, the equilibrium of the other moments
  is computed with conserved moments already replaced by values in the moving frame.
* **C77** `_check_entry_size` only writes in the log: lists of relaxation parameters of wrong sizes which compensate
  are accepted and a scheme takes a parameter of the previous one. (Also, a scheme without `feq` nor `equilibrium` is
  skipped, which shifts the equilibria of the next ones.)
* **C59** is false for the parallelepipeds and the triangular cylinders (found with the wrong program which exchanges their labels): `Domain` looks at a window around the bounds, which are too small (C29). `C21_windows` says exactly which cells are seen; a parallelepiped of height 4 with one cell of halo has all its solid cells, but the fluid cells above its top are outside of the window and their links to the solid carry neither distance nor label, so that no boundary condition is applied there (`C59_parallelepiped_negation`).
* **C59** (found with C78) in a box which is periodic in x with walls in y (`label: [-1, -1, 0, 1]`, as in
  demo/2D/Rayleigh-Benard.py), the diagonal links of the four corner cells carry the label -1 of the periodic face,
  because `__add_init` compares with a strict inequality and treats x first. No boundary method acts on them and the
  populations go through the wall to the opposite wall (`C59_corner_negation`). With the walls in x and the periodic
  faces in y the label is the one of the wall.
* **C78** is false for `BouzidiBounceBack` when the walls are not halfway (`C78_interpolated_negation`), and for
  velocities of length two or more at the edges between a periodic face and a wall
  (`C78_long_velocities_negation`): the first face which is met is not the same from the two ends of the link.
* **C79** is false for a conserved moment called `m` (`C79_name_negation`: `parse_expr` puts the symbol in place of the
  array in the dictionary of locals; after such a source term the others fail too, `C79_shared_negation`), for indices
  with a comma inside (`C79_index_negation`), for storage orders which permute the space axes (`C79_order_negation`), and
  up to the rounding of the coefficients to 15 digits (`C79_digits_negation`).
* **C80** is false for a uniform flow imposed by `BouzidiBounceBack` or `BouzidiAntiBounceBack` on walls which are not
  halfway between the cells (`C80_interpolated_negation`, a consequence of C33 in whole runs).
* **C83** the dependencies written by the Loopy printer are patterns: `dep=inst_1*` also designates `inst_10`, `inst_11`, …
  With eleven equations in a kernel the dependencies are circular and no order is possible (`C83_eleven_negation`). The
  largest kernels of the package (three dimensions, relative velocity, source terms) have exactly ten; the three lines
  `coords()` which are commented out in `one_time_step` would break them. An equation which is printed without any
  assignment (`m[i] = m[i]` for all components: all the moments are conserved) breaks the chain, and the new
  distribution functions may be computed before the moments (`C83_empty_negation`). Coupled source terms are in one
  block without order: the result depends on the order taken (`C83_coupled_negation`), besides C45.
* **C84** the halo kernels of the Loopy backend copy one layer of cells of the process itself. With velocities longer
  than one in a direction, the inner layers of the halo are never written (`C84_wide_negation`). In a direction without
  any velocity along it, there is no halo and the first owned cell is overwritten with the last but one
  (`C84_flat_negation`). On several processes the halo receives the process' own cells (`C84_parallel_negation`).
  Nothing refuses these cases with `generator: loopy`. With halos of one cell and one process, the update is right in
  any order (`C84_update_partial`).
* **C85** with the Loopy backend `__setitem__` writes into the copy in memory without refreshing it and sends all of it
  to the device: what the kernels have computed since the last read is lost at the positions which are not assigned
  (`C85_stale_negation`). `sim.F_halo[k] = v` after an odd number of steps without a read sets all the other
  distribution functions to zero (`C85_reset_negation`). Writes into the arrays returned by reads never reach the device
  (`C85_view_negation`). If each assignment follows a read, all is right (`C85_same_partial`).
* **C86** holds for reflections but not for the exchange of the axes: a link which crosses two faces of the box at the
  same point takes the label of the first axis, so the corners of the driven cavity are not the same for a lid along x
  and for a lid along y (`C86_turn_negation`, for every square box). The construction itself is not symmetric either: an
  element two cells on the left of the box makes it fail, its mirror image on the right does not
  (`C86_failure_negation`).
* **C87** holds for solid parts and fails for fluid ones: `STLElement.distance` gives an infinite distance where the other
  elements give -1, and `__add_elem` accepts it for a fluid part (`alpha > 0`, `alpha > dist`). Every link from a cell of
  the part to a cell out of the box which the surface does not cut loses the label of the face of the box and gets the
  label -1 with an infinite distance (`C87_box_label_negation`).
* **C82** does not hold with anti bounce-back, even without value (`C82_anti_negation`); this is the known behaviour of
  the method and not a fault of the code.
* **C39** with the C backends `transport` writes `Fnew` while `f2m` reads `F`: the documented sequence of
  phases does not transport. With `split` the relative velocity is one scalar kept from the last cell of
  its loop. The public phases `f2m`, `relaxation`, `m2f` ignore the relative velocity.
* **C41** with the Base algorithm and a relative velocity the totals are not conserved (consequence of C46).
* **C44** `transport`, or a write through the array returned by `F[i]`, leaves the cached moments; after a
  write of one moment (`m_halo[i] = v`) the other moments of a stale cache are never refreshed.
* **C57** `update_feq` gives the user function the arrays of the previous call: a function which writes a
  moment at some times only keeps imposing the old value.
* **C47** `recursive_sub` raises `UnboundLocalError` when there is nothing to replace.
* **C50** the tolerance `TPV` is absolute while the coefficients of `p°` may be as small as one likes: the
  monic polynomial `z³ - 4 c z² - 4 z + c` with `c = 1 - 5e-7` passes `is_svN` and `is_vN`, and has a root
  larger than 4.
* **C51** with a relative velocity the jacobian with respect to the conserved moments is applied to the
  first components of `Tu m` (relative moments): the eigenvalues are not those of the scheme.
* **C52** `np.asarray` of the gathered numbers of points is a ragged array (refused by numpy >= 1.24) as
  soon as a direction is not divided evenly; for a 2D vector the XDMF file announces 2 components and the
  dataset holds 3.  `set_grid` reads `x[1]`, so that it also fails when a process has a single cell in a direction
  (`C52_grid_iff`: it works exactly for even decompositions with at least two cells for each process).  The mesh of
  the XDMF file has its sizes in the order opposite to the one of the data, and in dimension 1 it is declared
  `3DRectMesh` with one coordinate (`C52_mesh_negation`; the conventions of XDMF, slowest direction first in
  `NumberOfElements` and `Dimensions`, are taken from its documentation).
* **C53** a monitored function that calls itself loses time (one start time per name); after an exception
  in a monitored call the stack keeps the name and later self times are charged to it.
* **C58** `add_elem` accepts elements of another dimension, which the constructor refuses (`C58_add_elem_negation`,
  for all geometries); a box with `z` and no `y` is read as a 1D box; a list of labels of the wrong length (box or
  element) is accepted.
* **C75** `indent_code` takes every line which ends with `end` for the end of a loop: with an extra parameter `bend`
  a statement such as `m[1] = bend` and the statements after it leave the loop, without any message. (Also, neither
  the Cython nor the NumPy printer can print the `If` of `check_isfluid`; C73 is about the loops of the algorithm.)
* **C76** the Cython and Loopy printers refuse an exponent which is a plain symbol (`rho**gamma`: `expr.exp > 0 and …`
  raises `TypeError`); the Cython printer writes a `Piecewise` with the C operator `? :`, which Cython does not read;
  a fraction is written in Cython with 15 digits.
* **C72** a half line through an edge between a face seen from inside and one seen from outside meets both at the
  same distance and the first one of the file wins: a point below a tetrahedron, outside, is declared inside, and
  the answer depends on the order of the triangles in the file. Grid points aligned with edges are usual.
* **C89** fails where the code compares a length with a constant, or a number with a length. The number of cells of a side
  is compared with the integers up to the space step (domain.py 399-414), so any side which is not a multiple of the step
  is refused in some units and silently rounded in others (`C89_cells_negation`); the scalar product of the axes of an
  ellipse is compared with `1e-14` (ellipse.py 84), so axes which are orthogonal up to rounding errors only are refused
  when the unit is small (`C89_axes_negation`; the same test in ellipsoid.py 93, and with `1e-10` in base.py 277); the
  normals of cylinders are not normalised and have the length of the vectors of the cylinder
  (`C89_cylinder_normals_negation`, cylinder.py 207-215). The rest holds.
* **C91** the report on the dictionary is built before the verdict is used and looks at `value[0]` of each list
  (validator.py 158, 345): any accepted dictionary with `elements: []` (or another empty list) stops with an `IndexError`
  (`C91_empty_negation`). Several things that the code reads can never be given: `comm` (domain.py 382,
  `C91_comm_negation`); the keys `time`, `space_x`, … of the parameters (scheme.py 193-198, and the notebook
  08_advection_reaction tells the user to use them), so the symbols are always `t`, `X`, `Y`, `Z`
  (`C91_time_and_space_negation`); `None` and a tuple with one function as the value of a boundary condition
  (`C91_values_negation`; `None` is in doc/_source/codes/boundary_D1Q3_wave.py 41). Conversely dictionaries are accepted
  that the constructors cannot use, with fifteen causes in `C91_unusable_negation` (no `x` in the box, labels in a tuple,
  a space step 0, several schemes with `M`, a boundary condition without method, arguments in a list, …); a box with `x`
  and `z` is silently of dimension 1 (`C91_axes_negation`); the key `-1` in the methods of a boundary condition is accepted
  and gives numbers after the last velocity (`C91_method_negation`). When a key has several errors, only the first one is
  shown (`C91_report_first_negation`). A refused dictionary ends the program with `sys.exit()`, so with the status of a
  success.
* **C92** is false when the directory of `codegen_option` is on the search path of Python, such as the directory of the
  script: the next simulations without `codegen_option` run the code left there (`C92_search_negation`), and the directory
  is moved to the end of `sys.path` (`C92_path_negation`).  It is false for a directory used with Cython and then with NumPy
  or Loopy (`C92_backend_negation`: the extension is imported), and for two codes of the same size generated in the same
  second in one directory (`C92_second_negation`: the byte code of the first is used).  When a simulation is not imported
  and the user catches the exception, the others cannot make a step any more (`C92_step_negation`: `monitor` reads the name
  of the module in `sys.modules`).
* **C93** is false with Loopy (`C93_loopy_negation`: the kernels have no name and the table is not printed).
* **C94** is false with the label 999 (`C94_label_999_negation`: a write before the beginning of the array), with an order which permutes the space axes (`C94_loops_iff`) and with one-sided schemes (`C94_one_sided_negation`, exact condition in `C94_transport_iff`).
* **C95** is false for additional parameters which are already parameters of the scheme (`C95_override_ignored` for all values, `C95_override_negation`), for the first pictures of `visualize` (`C95_first_picture_negation`: the values `init` of the sliders are not used before the first move), and with 0 wave vectors every scheme is announced stable (`C95_no_wave_vector`).  A list of values which is too long is accepted (`C95_long_state`).  The sliders also change the dictionary of the parameters of the scheme itself, which is shared (not modelled).
* **C96** is false for ellipses whose second axis is the longer one (elements/ellipse.py 187 `r1, r2 = nv2, nv2`: a disc of radius `|v2|` is drawn, `C96_ellipse_negation` for all such ellipses), for `Stencil.visualize(k=…)` and `unique_velocities=True` (stencil.py 954 writes `self.num[i]` with the number of the view, `C96_stencil_choice_negation`), for solid elements in three dimensions with a label outside `[-10, 10)` (`couleurs[elem.label[k]]`, an `IndexError`, `C96_labels_iff`; the labels of the box are taken modulo 10), and for the top of the cylinders, drawn with the colour of the bottom (`C96_top_negation`).  Read but not modelled: `view_normal` in one dimension draws to a second coordinate which is never set (domain.py 844-845, `np.empty`).
* **C97** is false with a relative velocity and the Pull algorithm (pull.py 51-53: `restore_conserved_moments` computes the conserved moments again from `f` after the first half step of the sources, which is lost; `C97_relative_negation` for all kernels: half of the source is integrated), and for exchanges where a source reads a moment declared before (`C97_order_negation`, for all such kernels: the sum of the totals is not conserved).
* **C98** is false for the interpolated methods: with `BouzidiBounceBack` and a wall which is not halfway between the cells one step of a dissipative scheme can increase the energy (`C98_interpolated_negation`).
* **C99** is false for `Min`, `Max`, `And` and `Or` whose arguments mix formulas with and without moments, like `Max(rho, 0)` or `And(rho > 0, s > 1)`: `numpy.amax((m[0], 0), axis=0)` and `numpy.logical_and.reduce` need arguments of the same shape (pycode.py 897-952), so a `ValueError` is raised for all values (`C99_extremum_negation`, `C99_condition_negation`). `C99_piecewise_maximum` is a formula which works.
* **C100** is false in three cases. `conserved_moments: [q, rho]` with the moments listed as `rho, q` (the defect of C36: the swaps of `_permute_consm_in_front` undo each other, so the wrong moments are taken for the conserved ones) gives another collision than `[rho, q]` (`C100_conserved_negation`). With coupled source terms the second moment sees the updated first one, so the order of the moments matters (`C100_sources_negation`, cf. C45). With a relative velocity, parameters of the conserved moments which are not 0 change these moments in the relaxation, which runs in place moment after moment, so that the equilibria of the later moments are computed with changed values and the order matters (`C100_relative_negation`, cf. C46).
* **C102** is false for a restart with `inittype = "moments"`: `initialization` calls `equilibrium`, so the saved moments which are not conserved have no effect and the populations are those of the equilibrium (`C102_inittype_partial`, `C102_inittype_negation`); the restart is exact only where the saved moments are at equilibrium, in particular when all the relaxation parameters are 1 (`C102_inittype_unit`). With `initialize=False` everything that is assigned before the first time step is overwritten by the dictionary (`C102_lazy_negation`). `t` and `nt` must be assigned by hand (`C102_time_negation`).
* **C103** is false with coupled source terms: adding a scheme which uses nothing and is not used changes the order of the moments after `_permute_consm_in_front`, and with it the order in which the coupled sources are applied, so that the result of the first scheme changes (`C103_sources_negation`, cf. C45 and C100).
* **C104** is false when the matrix `M` is given and the conserved moments are not its first rows: `self.M` is the matrix of the dictionary, whose rows are then swapped in place. The second scheme or simulation built with the same dictionary reads every moved conserved moment with the row of another moment, and the matrix of the first scheme is no longer the inverse of its `invM` (`C104_matrix_negation`, for all matrices and positions); with `feq` the relaxation parameters are not moved with the moments (`C104_feq_negation`); mass is lost (`C104_mass_negation`).
* **C105** is false (1) for the time step: `dt` is computed once and kept, so that after a change of a parameter of the scheme velocity `t` advances by the old step for ever while the matrices use the new one (`C105_time_negation`, `C105_first_negation`); (2) for the boundary conditions without `time_bc`, whose values stay those of the parameters at the initialisation (`C105_walls_negation`); (3) for the moments already read, which are returned again although the matrix has changed (`C105_read_negation`); (4) for the matrices when a definition of the dictionary uses a parameter placed before it: the one-pass substitution leaves this parameter, which is then a missing argument (`C105_order_negation`), although `recursive_sub` is right for the equilibria.
* **C106** is false when several processes are given the same directory (`codegen_option`): between `os.access` and `os.mkdir` another process may make the directory (`C106_mkdir_negation`: `FileExistsError`), and between the write and the import of a process another one may open the file again, which empties it (`C106_part_negation`: any part of the text may be imported). A barrier before the import would be enough when the directory exists (`C106_barrier_partial`).
* **C107** is false (1) for `BouzidiBounceBack` on a moving wall at a distance larger than 1/2 of the cell: the imposed term is not divided by twice the distance, so that a Couette flow is not kept (`C107_interpolated`, an equivalence: exact for distances up to 1/2 or for walls at rest); for `BouzidiAntiBounceBack` at all distances but 1/2 (`C107_interpolated_anti`); (2) for the flow along x in a channel periodic in x with walls in y: the links through the edges take the label of the periodic face, no boundary condition acts on them and the corner cells receive a population of the opposite wall (`C107_corner_negation`). The same channel with the axes exchanged is exact (`C107_couette`).
* **C108** does not extend to `BouzidiBounceBack` (`C108_interpolated_negation`): a weighted mean of two populations cannot be undone by the same formula. This is a limit of the method, not an error of the code.
* **C109** is false with coupled source terms: when two moments are exchanged together with their source terms, the result changes (`C109_source_negation`), because each source term is computed with the moments which have already been updated (C45, C100). With a relative velocity it is false for the Base algorithm, which does not restore the conserved moments after the shift (`C46_base_negation`); for the Pull algorithm `C109_relative_runs_partial` says when the relative velocity has no effect at all.
* **C110** does not extend to anti bounce-back, which reverses the order (`C110_anti_negation`), nor, for the distance, to `BouzidiBounceBack`, which uses a population twice (`C110_interpolated_negation`; the order is kept, `C110_order`). These are limits of the methods, not errors of the code.
* **C111**: with `source_terms` on the momentum alone (the demos Rayleigh-Benard and air_conditioning) the product of the relaxation parameters for which the walls of D2Q9 are exactly halfway is 3/8 and not the 3/16 of the literature, where the force enters the flux of energy too (`C111_d2q9`); the momentum which is read in the containers is shifted by half of the source step (`C111_steady`); a scheme whose moments not conserved are all even never has its walls there (`C111_even_negation`). Limits of the method, not errors of the code.
* **C112**: the demo Poiseuille gives different relaxation parameters to the energy and to X²-Y² (`s1`, `s2`), so the sums over the direction of the flow are not closed there (`C112_closed_iff`): the pressure across the channel reacts to the square of the velocity along it. A limit of the scheme, not an error of the code.
* **C113**: the instances of the boundary methods are ordered by the first label (in increasing order) which uses them, boundary.py 95-160, and `NeumannX.set_iload` (boundary.py 826-845) reads, at the edges of the outlet, a ghost cell which the method of the wall writes. In demo/2D/Poiseuille.py the wall has the label 0 and the outlet the label 1, so the wall comes first and the condition is right (`outlet_case`); with the numbers 0 and 1 exchanged the outlet reads the value which the exchange of the halos has put there, the one of the opposite side of the box: the derivative is not zero and one step gives other values in a fluid cell (`C113_outlet_negation`, `C113_negation`).
* **C114** does not extend to diagonal velocities: in a channel with bounce-back walls no choice of the values behind the walls makes the periodic simulation of the doubled box hold the values of the channel (`C114_diagonal_negation`, four diagonal velocities, relaxation parameters 0). A property of bounce-back, not a defect of the code.
* **C117**: `options()` is called when pylbm is imported and reads the command line of the user's program. An option `-n` or `-np` of that program is refused as an ambiguous abbreviation (`C117_abbreviation_negation`), `-h…` and `--help` end the program before it reads its own options (`C117_help_negation`), and `-npx4` is dropped without a message (`C117_glued_negation`).
* **C118**: the numbers of the directions which the problem does not have are compared with 1 (mpi_topology.py 73), so `-npz 2` in dimension 2 switches off the automatic splitting and all the processes but one fail (`C118_unused_negation`); `-npx 1 -npy 1 -npz 1` on several processes is the same as no option (`C118_ones_negation`). With a product smaller than the number of processes the other processes fail with the null communicator, without a message of pylbm (`C118_failures`).
* **C119** is false for `fig[i]` in figures of several columns: the table uses `(i, 0)` and `GridSpec` counts the places row after row (matplotlib_viewer.py 78-84), so the view is drawn at `(i // ncols, i % ncols)`, is returned by `fig[i, 0]`, and a second view is made on top of it (`C119_rows_negation`); with one row `fig[1]` is an `IndexError` (`C119_row_negation`). The demos use two integers or one column.
* **C120**: `Stability` samples the wave vectors of the box with `n0` cells in each direction, so its verdict concerns the boxes whose sizes divide `n0` or are multiples of it. Between the samples anything may happen: D1Q2 with the velocities `± n0` is declared stable with each tolerance and is unbounded on `4 n0` cells (`C120_sampling_negation`). A limit of the method, which the documentation does not mention.
* **C121**: with an even number of cells D1Q2 does not reach the uniform state for some initial values, whatever the relaxation parameter: the cells of the two colours never exchange anything (`C121_negation`, `connects_d1q2`). A limit of the method, which the documentation does not mention.
* **C122** is false (1) for names with a dot: hdf5.py 30 drops what follows the last dot, so that `rho_0.1` and `rho_0.2` go to the same file and the first output is lost (`C122_dot_negation`, for all such names); (2) when a name without time step ends with an underscore and a number (`C122_number_negation`); (3) with the default `path=""`: `os.mkdir("")` raises on the process 0 (`C122_default_path_negation`), and the others wait at the barrier of hdf5.py 49; (4) for names with a slash, which the description refers to from the wrong directory (`C122_reference`, an equivalence).
* **C123** is false in three dimensions: no branch of `eigenvalues` (stability.py 81-89) sets `v_xi`, and every call raises `UnboundLocalError` (`C123_dimension_negation`: an answer exactly in dimensions 1 and 2). More wave vectors can hide an instability (`C123_more_negation`: D1Q2 with the velocities ± (4 p + 1) is declared not stable with 4 wave vectors and stable with 4 p + 1); multiples of the number of points cannot (`C123_multiples`).
