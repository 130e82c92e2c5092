import Verif.Base.Dict
import Verif.Base.F64
import Verif.Base.Fl
import Verif.Base.Mat
import Verif.Base.Num
import Verif.Base.Py
import Verif.Base.PyFloat
import Verif.Base.Rd
import Verif.Base.V3
import Verif.Model.Apex
import Verif.Model.BlockSparse
import Verif.Model.Box
import Verif.Model.CgSolve
import Verif.Model.Composite
import Verif.Model.CompositeMemory
import Verif.Model.ConjGrad
import Verif.Model.Console
import Verif.Model.Convexify
import Verif.Model.CoordinateManager
import Verif.Model.EdgeMap
import Verif.Model.EulerPath
import Verif.Model.FitPlane
import Verif.Model.GramSchmidt
import Verif.Model.IntArrays
import Verif.Model.Isomorphism
import Verif.Model.Json
import Verif.Model.Lapack
import Verif.Model.Lchol
import Verif.Model.LcholMemory
import Verif.Model.LineSolve
import Verif.Model.Matlab
import Verif.Model.MeshSections
import Verif.Model.MeshSlice
import Verif.Model.Normals
import Verif.Model.Numerics
import Verif.Model.Plane
import Verif.Model.PlaneMemory
import Verif.Model.Polyline
import Verif.Model.PolylineAttrs
import Verif.Model.PolylineMemory
import Verif.Model.PolylineText
import Verif.Model.RigidTransform
import Verif.Model.Rodrigues
import Verif.Model.RodriguesJac
import Verif.Model.Rotation
import Verif.Model.Segment
import Verif.Model.Shapes
import Verif.Model.SparseCg
import Verif.Model.Triangle
import Verif.Model.Units
import Verif.Model.Value
import Verif.Model.ValueOther
import Verif.Model.ValueText
import Verif.Model.Vx
import Verif.Model.Wrappers
import Verif.Proofs.Appr
import Verif.Proofs.Chord
import Verif.Proofs.CompositeMemory
import Verif.Proofs.ConjGrad
import Verif.Proofs.EulerPath
import Verif.Proofs.Extreme
import Verif.Proofs.F64
import Verif.Proofs.FloatError
import Verif.Proofs.LoopGraph
import Verif.Proofs.LoopSlice
import Verif.Proofs.MeshGraph
import Verif.Proofs.MeshNormals
import Verif.Proofs.MeshSlice
import Verif.Proofs.Mirror
import Verif.Proofs.Motion
import Verif.Proofs.Near
import Verif.Proofs.Normals
import Verif.Proofs.Numerics
import Verif.Proofs.Plane
import Verif.Proofs.PlaneMemory
import Verif.Proofs.Polyline
import Verif.Proofs.PolylineMemory
import Verif.Proofs.RdOps
import Verif.Proofs.Resampling
import Verif.Proofs.Rescale
import Verif.Proofs.RigidSym
import Verif.Proofs.Rotation
import Verif.Proofs.RoundEval
import Verif.Proofs.Rounding
import Verif.Proofs.Sides
import Verif.Proofs.Svd
import Verif.Proofs.Tape
import Verif.Proofs.Units
import Verif.Proofs.V3
import Verif.Proofs.Value
import Verif.Proofs.VertexSlice
import Verif.Proofs.Vx
import Verif.Props.Apex
import Verif.Props.BlockSparse
import Verif.Props.Box
import Verif.Props.CgSolve
import Verif.Props.Chord
import Verif.Props.ClosedSurface
import Verif.Props.Composite
import Verif.Props.CompositeMemory
import Verif.Props.ConjGrad
import Verif.Props.ConvexCut
import Verif.Props.ConvexMeets
import Verif.Props.ConvexSlice
import Verif.Props.ConvexVertex
import Verif.Props.Convexify
import Verif.Props.CoordinateManager
import Verif.Props.CrossProduct
import Verif.Props.CutPoints
import Verif.Props.DegenerateFaces
import Verif.Props.EdgeMap
import Verif.Props.EulerPath
import Verif.Props.FitPlane
import Verif.Props.FitSymmetry
import Verif.Props.FlatSlice
import Verif.Props.FloatAngle
import Verif.Props.FloatApex
import Verif.Props.FloatChord
import Verif.Props.FloatComposite
import Verif.Props.FloatCut
import Verif.Props.FloatError
import Verif.Props.FloatEuler
import Verif.Props.FloatFrames
import Verif.Props.FloatGramSchmidt
import Verif.Props.FloatInverse
import Verif.Props.FloatIsomorphism
import Verif.Props.FloatKept
import Verif.Props.FloatLines
import Verif.Props.FloatMeasures
import Verif.Props.FloatMesh
import Verif.Props.FloatModel
import Verif.Props.FloatNormals
import Verif.Props.FloatPartition
import Verif.Props.FloatRange
import Verif.Props.FloatRangeUnits
import Verif.Props.FloatRotation
import Verif.Props.FloatRounding
import Verif.Props.FloatSampling
import Verif.Props.FloatShapes
import Verif.Props.FloatSlice
import Verif.Props.FloatUpLook
import Verif.Props.FloatValues
import Verif.Props.Girth
import Verif.Props.GirthOrder
import Verif.Props.GramSchmidt
import Verif.Props.HalfSection
import Verif.Props.HullExists
import Verif.Props.IntArrays
import Verif.Props.Isomorphism
import Verif.Props.Json
import Verif.Props.Lapack
import Verif.Props.LapackRounded
import Verif.Props.Lchol
import Verif.Props.LcholMemory
import Verif.Props.LeastSquares
import Verif.Props.LineSolve
import Verif.Props.LineSolveDoubles
import Verif.Props.Matlab
import Verif.Props.Measured
import Verif.Props.MeshNormals
import Verif.Props.MeshSlice
import Verif.Props.Mirror
import Verif.Props.Motion
import Verif.Props.MovedMesh
import Verif.Props.NearEig
import Verif.Props.NearSvd
import Verif.Props.NoisyFit
import Verif.Props.NormalizedRows
import Verif.Props.NotFinite
import Verif.Props.Numerics
import Verif.Props.PartitionLimits
import Verif.Props.Plane
import Verif.Props.PlaneMemory
import Verif.Props.Polyline
import Verif.Props.PolylineAttrs
import Verif.Props.PolylineCut
import Verif.Props.PolylineMemory
import Verif.Props.PolylineText
import Verif.Props.Recut
import Verif.Props.Resampling
import Verif.Props.Rescale
import Verif.Props.RigidMirror
import Verif.Props.RigidOnly
import Verif.Props.RigidSym
import Verif.Props.RigidTransform
import Verif.Props.Rodrigues
import Verif.Props.RodriguesExp
import Verif.Props.RodriguesJac
import Verif.Props.RodriguesLogJac
import Verif.Props.RodriguesNear
import Verif.Props.RodriguesNearest
import Verif.Props.RotateXz
import Verif.Props.Rotation
import Verif.Props.Segment
import Verif.Props.Shapes
import Verif.Props.Sides
import Verif.Props.SliceEnds
import Verif.Props.SolidSlice
import Verif.Props.SparseCg
import Verif.Props.Tape
import Verif.Props.Triangle
import Verif.Props.Turned
import Verif.Props.Units
import Verif.Props.Value
import Verif.Props.ValueOther
import Verif.Props.ValueText
import Verif.Props.VertexSlice
import Verif.Props.Vx
import Verif.Props.Wrappers
import Verif.Spec.BestPlane
import Verif.Spec.Chord
import Verif.Spec.ClosedSurface
import Verif.Spec.ConvexMesh
import Verif.Spec.Fit
import Verif.Spec.FloatChord
import Verif.Spec.FloatError
import Verif.Spec.FloatPlane
import Verif.Spec.Frames
import Verif.Spec.Geom
import Verif.Spec.GramSchmidt
import Verif.Spec.Graph
import Verif.Spec.Hull
import Verif.Spec.Isomorphism
import Verif.Spec.Lchol
import Verif.Spec.LineSolve
import Verif.Spec.Measure
import Verif.Spec.MeshSlice
import Verif.Spec.Mirror
import Verif.Spec.Motion
import Verif.Spec.MovedMesh
import Verif.Spec.NearSvd
import Verif.Spec.Normals
import Verif.Spec.NotFinite
import Verif.Spec.Plane
import Verif.Spec.Polyline
import Verif.Spec.Resampling
import Verif.Spec.Rescale
import Verif.Spec.Rigid
import Verif.Spec.Rotation
import Verif.Spec.RotationMap
import Verif.Spec.Rounding
import Verif.Spec.Space
import Verif.Spec.Sparse
import Verif.Spec.SparseCg
import Verif.Spec.Surface
import Verif.Spec.Svd
import Verif.Spec.Transform
import Verif.Spec.Units
import Verif.Spec.Value
import Verif.Spec.ValueHistory
import Verif.Spec.ValueText
import Verif.Spec.Vec
import Verif.Spec.VertexSlice
import Verif.Tests.Basic
import Verif.Tests.F64
import Verif.Tests.Geometry
import Verif.Tests.Numerics
import Verif.Tests.Predicates
import Verif.Tests.Primitives
import Verif.Tests.Transform
import Verif.Tests.Units
import Verif.Tests.Value
