import Verif.Boundary.Bridge
import Verif.Boundary.Lemmas
import Verif.Boundary.Mass
import Verif.Boundary.Memory
import Verif.Boundary.MemorySpec
import Verif.Boundary.Model
import Verif.Boundary.Order
import Verif.Boundary.Part
import Verif.Boundary.Props
import Verif.Boundary.RunTime
import Verif.Boundary.Spec
import Verif.Boundary.Time
import Verif.Boundary.Wall
import Verif.Boundary.Witness
import Verif.Codegen.Calls
import Verif.Codegen.Conditions
import Verif.Codegen.Layout
import Verif.Codegen.Loading
import Verif.Codegen.Loopy
import Verif.Codegen.Names
import Verif.Codegen.Parallel
import Verif.Codegen.Printing
import Verif.Codegen.Source
import Verif.Codegen.SourceProps
import Verif.Common.List
import Verif.Common.Radix
import Verif.Common.Round
import Verif.Domain.Box
import Verif.Domain.Clipped
import Verif.Domain.Coords
import Verif.Domain.Decompose
import Verif.Domain.Elements
import Verif.Domain.Labels
import Verif.Domain.Lemmas
import Verif.Domain.Library
import Verif.Domain.Mirror
import Verif.Domain.MirrorCases
import Verif.Domain.MirrorLibrary
import Verif.Domain.MirrorSolids
import Verif.Domain.MirrorSolidsCases
import Verif.Domain.Model
import Verif.Domain.Nearest
import Verif.Domain.Props
import Verif.Domain.Provenance
import Verif.Domain.Short
import Verif.Domain.Space
import Verif.Domain.Spec
import Verif.Domain.Stl
import Verif.Domain.StlCases
import Verif.Domain.Units
import Verif.Domain.UnitsLibrary
import Verif.Domain.Velocities
import Verif.Domain.WallLinks
import Verif.Domain.Witness
import Verif.Geometry.AddElem
import Verif.Geometry.Cylinder
import Verif.Geometry.Describe
import Verif.Geometry.Labels
import Verif.Geometry.Lines
import Verif.Geometry.Model
import Verif.Geometry.Normals
import Verif.Geometry.Polygon
import Verif.Geometry.Quadric
import Verif.Geometry.Round
import Verif.Geometry.Spec
import Verif.Geometry.Stl
import Verif.Halo.Gpu
import Verif.Halo.Lemmas
import Verif.Halo.Model
import Verif.Halo.Props
import Verif.Halo.Spec
import Verif.Input.Accept
import Verif.Input.Cases
import Verif.Input.Kinds
import Verif.Input.Model
import Verif.Input.Reads
import Verif.Input.Report
import Verif.Input.Use
import Verif.Mpi.Model
import Verif.Mpi.Options
import Verif.Mpi.Props
import Verif.Mpi.Spec
import Verif.Mpi.Split
import Verif.Output.Hdf5
import Verif.Output.Mesh
import Verif.Output.Monitor
import Verif.Output.Picture
import Verif.Output.PictureProps
import Verif.Output.PictureSpec
import Verif.Output.Series
import Verif.Output.Util
import Verif.Output.Views
import Verif.Scheme.Assembly
import Verif.Scheme.Basis
import Verif.Scheme.Lemmas
import Verif.Scheme.Matrices
import Verif.Scheme.Model
import Verif.Scheme.Order
import Verif.Scheme.Part
import Verif.Scheme.Permute
import Verif.Scheme.Props
import Verif.Scheme.Relative
import Verif.Scheme.Reuse
import Verif.Scheme.Spec
import Verif.Sim.Absorb
import Verif.Sim.Affine
import Verif.Sim.Alias
import Verif.Sim.Attract
import Verif.Sim.AttractAffine
import Verif.Sim.AttractCases
import Verif.Sim.Balance
import Verif.Sim.BalanceCases
import Verif.Sim.Basis
import Verif.Sim.BasisCases
import Verif.Sim.Bounds
import Verif.Sim.Closed
import Verif.Sim.ClosedCases
import Verif.Sim.Cone
import Verif.Sim.ConeCases
import Verif.Sim.Cycle
import Verif.Sim.Diagonal
import Verif.Sim.Energy
import Verif.Sim.EnergyCases
import Verif.Sim.Flow
import Verif.Sim.Fluid
import Verif.Sim.Forget
import Verif.Sim.Global
import Verif.Sim.Images
import Verif.Sim.ImagesCases
import Verif.Sim.Init
import Verif.Sim.Lemmas
import Verif.Sim.Line
import Verif.Sim.LineCases
import Verif.Sim.Linear
import Verif.Sim.LinearCases
import Verif.Sim.Mass
import Verif.Sim.MassCases
import Verif.Sim.Mean
import Verif.Sim.MeanCases
import Verif.Sim.Mirror
import Verif.Sim.MirrorCases
import Verif.Sim.Mixing
import Verif.Sim.Model
import Verif.Sim.Monotone
import Verif.Sim.MonotoneCases
import Verif.Sim.Order
import Verif.Sim.OrderCases
import Verif.Sim.Part
import Verif.Sim.PartCases
import Verif.Sim.Poiseuille
import Verif.Sim.PoiseuilleCases
import Verif.Sim.Props
import Verif.Sim.Renaming
import Verif.Sim.RenamingCases
import Verif.Sim.Rest
import Verif.Sim.RestCases
import Verif.Sim.Restart
import Verif.Sim.RestartCases
import Verif.Sim.Reverse
import Verif.Sim.ReverseCases
import Verif.Sim.Rounding
import Verif.Sim.RoundingBalance
import Verif.Sim.RoundingBalanceCases
import Verif.Sim.RoundingCases
import Verif.Sim.Shear
import Verif.Sim.ShearCases
import Verif.Sim.Shift
import Verif.Sim.ShiftCases
import Verif.Sim.Sublattice
import Verif.Sim.SublatticeCases
import Verif.Sim.Symmetry
import Verif.Sim.Tiles
import Verif.Sim.TilesCases
import Verif.Sim.Units
import Verif.Sim.UnitsCases
import Verif.Sim.Walls
import Verif.Sim.Witness
import Verif.Stability.Dissipative
import Verif.Stability.Equivalent
import Verif.Stability.Expansion
import Verif.Stability.Faddeev
import Verif.Stability.Flat
import Verif.Stability.FlatConverse
import Verif.Stability.Form
import Verif.Stability.Layer
import Verif.Stability.Monotone
import Verif.Stability.MonotoneCases
import Verif.Stability.Nonlinear
import Verif.Stability.OnlyEquation
import Verif.Stability.OrderTwo
import Verif.Stability.Sampling
import Verif.Stability.Schur
import Verif.Stability.SecondOrder
import Verif.Stability.SecondOrderCases
import Verif.Stability.Stable
import Verif.Stability.Star
import Verif.Stability.State
import Verif.Stability.StepExpansion
import Verif.Stability.Structure
import Verif.Stability.StructureCases
import Verif.Stability.Tests
import Verif.Stability.Truncation
import Verif.Stability.Wave
import Verif.Stencil.Lemmas
import Verif.Stencil.Model
import Verif.Stencil.Props
import Verif.Stencil.Spec
import Verif.Storage.Device
import Verif.Storage.Lemmas
import Verif.Storage.Model
import Verif.Storage.Props
import Verif.Storage.Spec
import Verif.Symbolic.RunTime
import Verif.Symbolic.Subs
import Verif.Velocity.Lemmas2D
import Verif.Velocity.Lemmas3D
import Verif.Velocity.LemmasPerm
import Verif.Velocity.Model
import Verif.Velocity.Props
import Verif.Velocity.Spec
