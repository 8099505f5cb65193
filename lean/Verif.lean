import Verif.Lemmas.Activation
import Verif.Lemmas.ActivationTr
import Verif.Lemmas.Axis
import Verif.Lemmas.BatchNorm
import Verif.Lemmas.BilinearSchur
import Verif.Lemmas.CGForm
import Verif.Lemmas.CGGrad
import Verif.Lemmas.CGInter
import Verif.Lemmas.CGNorm
import Verif.Lemmas.CGOrth
import Verif.Lemmas.CGReal
import Verif.Lemmas.CGScalar
import Verif.Lemmas.CGSelect
import Verif.Lemmas.CGStretch
import Verif.Lemmas.CGSum
import Verif.Lemmas.CGSwap
import Verif.Lemmas.Choice
import Verif.Lemmas.Einsum
import Verif.Lemmas.EquivTest
import Verif.Lemmas.Erf
import Verif.Lemmas.GaussExists
import Verif.Lemmas.Gaussian
import Verif.Lemmas.Grad
import Verif.Lemmas.GradArray
import Verif.Lemmas.HaarUnique
import Verif.Lemmas.IArr
import Verif.Lemmas.IArrOps
import Verif.Lemmas.IArrSlice
import Verif.Lemmas.Irrep
import Verif.Lemmas.Irreps
import Verif.Lemmas.IrrepsOnly
import Verif.Lemmas.IrrepsOnly2
import Verif.Lemmas.IrrepsSort
import Verif.Lemmas.JTable
import Verif.Lemmas.JWitness
import Verif.Lemmas.JaxprAll
import Verif.Lemmas.JaxprDce
import Verif.Lemmas.JaxprDepth
import Verif.Lemmas.JaxprDup
import Verif.Lemmas.JaxprDup2
import Verif.Lemmas.JaxprDup3
import Verif.Lemmas.LegacyRight
import Verif.Lemmas.LegacyTP
import Verif.Lemmas.Legendre
import Verif.Lemmas.LegendreCore
import Verif.Lemmas.LinAlg
import Verif.Lemmas.Linear
import Verif.Lemmas.LinearComplete
import Verif.Lemmas.LinearEquinox
import Verif.Lemmas.LinearMatrix
import Verif.Lemmas.LinearModule
import Verif.Lemmas.LinearSHTP
import Verif.Lemmas.LinearSHTP2
import Verif.Lemmas.LinearSHTP3
import Verif.Lemmas.LinearSHTP4
import Verif.Lemmas.LinearSem
import Verif.Lemmas.MapRows
import Verif.Lemmas.MessagePassing
import Verif.Lemmas.Natural
import Verif.Lemmas.NaturalMore
import Verif.Lemmas.Offsets
import Verif.Lemmas.Parse
import Verif.Lemmas.Perm
import Verif.Lemmas.PermGroup
import Verif.Lemmas.PermRepr
import Verif.Lemmas.PermRepr2
import Verif.Lemmas.PermRepr3
import Verif.Lemmas.PermRepr4
import Verif.Lemmas.PermRepr5
import Verif.Lemmas.PermSign
import Verif.Lemmas.RTPAverage
import Verif.Lemmas.RTPAxes
import Verif.Lemmas.RTPBasis
import Verif.Lemmas.RTPConstrain
import Verif.Lemmas.RTPEquiv
import Verif.Lemmas.RTPFlat
import Verif.Lemmas.RTPFront
import Verif.Lemmas.RTPKeep
import Verif.Lemmas.RTPKeepOpt
import Verif.Lemmas.RTPLoop
import Verif.Lemmas.RTPOps
import Verif.Lemmas.RTPOptAxes
import Verif.Lemmas.RTPOptEmbed
import Verif.Lemmas.RTPOptPerm
import Verif.Lemmas.RTPOptProd
import Verif.Lemmas.RTPOptSpec
import Verif.Lemmas.RTPOptSym
import Verif.Lemmas.RTPPlace
import Verif.Lemmas.RTPSchur
import Verif.Lemmas.RTPSum
import Verif.Lemmas.RTPTotal
import Verif.Lemmas.RadialPoly
import Verif.Lemmas.RandRot
import Verif.Lemmas.Rechunk
import Verif.Lemmas.Reflect
import Verif.Lemmas.RotInv
import Verif.Lemmas.Rotation
import Verif.Lemmas.Rotation2
import Verif.Lemmas.Rowwise
import Verif.Lemmas.S2Core
import Verif.Lemmas.S2Expand
import Verif.Lemmas.S2Fourier
import Verif.Lemmas.S2Parity
import Verif.Lemmas.S2Point
import Verif.Lemmas.S2Quad
import Verif.Lemmas.S2fft
import Verif.Lemmas.SHCore
import Verif.Lemmas.SHGrad
import Verif.Lemmas.SO3
import Verif.Lemmas.SO3Band
import Verif.Lemmas.SO3Haar
import Verif.Lemmas.SO3Int
import Verif.Lemmas.SO3Quad
import Verif.Lemmas.SO3Vec
import Verif.Lemmas.SO3X
import Verif.Lemmas.SU2
import Verif.Lemmas.Shape
import Verif.Lemmas.SliceDim
import Verif.Lemmas.SoftQuad
import Verif.Lemmas.Sort
import Verif.Lemmas.SphHarm
import Verif.Lemmas.SymTP
import Verif.Lemmas.TPSH
import Verif.Lemmas.TensorProduct
import Verif.Lemmas.TensorSquare
import Verif.Lemmas.Transform
import Verif.Lemmas.TransformO3
import Verif.Lemmas.Transformer
import Verif.Lemmas.Transformer2
import Verif.Lemmas.TransformerHeads
import Verif.Lemmas.Voxel
import Verif.Lemmas.VoxelCall
import Verif.Lemmas.VoxelKernel
import Verif.Lemmas.Wigner
import Verif.Lemmas.Zoom
import Verif.Model.Activation
import Verif.Model.AtIndex
import Verif.Model.Axis
import Verif.Model.AxisMove
import Verif.Model.Basic
import Verif.Model.BatchNorm
import Verif.Model.CG
import Verif.Model.Compare
import Verif.Model.Config
import Verif.Model.Dropout
import Verif.Model.Einsum
import Verif.Model.EquivTest
import Verif.Model.FCTP
import Verif.Model.FindPeaks
import Verif.Model.Generators
import Verif.Model.Grad
import Verif.Model.IArr
import Verif.Model.Index
import Verif.Model.IrrepAttr
import Verif.Model.Irreps
import Verif.Model.IrrepsOnly
import Verif.Model.J
import Verif.Model.Jaxpr
import Verif.Model.LegacyTP
import Verif.Model.LimitDenom
import Verif.Model.LinAlg
import Verif.Model.Linear
import Verif.Model.LinearEquinox
import Verif.Model.LinearModule
import Verif.Model.LinearSHTP
import Verif.Model.MLP
import Verif.Model.MessagePassing
import Verif.Model.Normal
import Verif.Model.NormalSpace
import Verif.Model.PadToPlot
import Verif.Model.Parse
import Verif.Model.Perm
import Verif.Model.PermGroup
import Verif.Model.PermRand
import Verif.Model.PermRepr
import Verif.Model.Pow
import Verif.Model.Py
import Verif.Model.Pytree
import Verif.Model.RDiv
import Verif.Model.Radial
import Verif.Model.RadiusGraph
import Verif.Model.RandRotation
import Verif.Model.ReducedFront
import Verif.Model.ReducedOpt
import Verif.Model.ReducedTP
import Verif.Model.Rotation
import Verif.Model.S2Grid
import Verif.Model.S2fft
import Verif.Model.SO3Grid
import Verif.Model.SU2
import Verif.Model.Sample
import Verif.Model.Scatter
import Verif.Model.Shape
import Verif.Model.SigIndex
import Verif.Model.Sort
import Verif.Model.SphericalHarmonics
import Verif.Model.SqrtRational
import Verif.Model.SymTP
import Verif.Model.Sympy
import Verif.Model.TPSH
import Verif.Model.TensorProduct
import Verif.Model.Transform
import Verif.Model.TransformO3
import Verif.Model.Transformer
import Verif.Model.Tuples
import Verif.Model.Vmap
import Verif.Model.Voxel
import Verif.Model.Wigner
import Verif.Model.Zoom
import Verif.Props.C01_C02
import Verif.Props.C03
import Verif.Props.C04_C11
import Verif.Props.C10
import Verif.Props.C100
import Verif.Props.C100Example
import Verif.Props.C101
import Verif.Props.C102
import Verif.Props.C103
import Verif.Props.C104
import Verif.Props.C105
import Verif.Props.C106
import Verif.Props.C107
import Verif.Props.C108
import Verif.Props.C109
import Verif.Props.C110
import Verif.Props.C111
import Verif.Props.C112
import Verif.Props.C113
import Verif.Props.C114
import Verif.Props.C115
import Verif.Props.C116
import Verif.Props.C117
import Verif.Props.C118
import Verif.Props.C119
import Verif.Props.C120
import Verif.Props.C121
import Verif.Props.C122
import Verif.Props.C123
import Verif.Props.C124
import Verif.Props.C125
import Verif.Props.C126
import Verif.Props.C127
import Verif.Props.C128
import Verif.Props.C12_C20
import Verif.Props.C14
import Verif.Props.C21
import Verif.Props.C22
import Verif.Props.C24_C25
import Verif.Props.C26
import Verif.Props.C27
import Verif.Props.C28_C32
import Verif.Props.C33_C35
import Verif.Props.C36_C38
import Verif.Props.C39
import Verif.Props.C40_C41
import Verif.Props.C42
import Verif.Props.C43
import Verif.Props.C44
import Verif.Props.C45
import Verif.Props.C46
import Verif.Props.C46b
import Verif.Props.C47
import Verif.Props.C48
import Verif.Props.C49
import Verif.Props.C50
import Verif.Props.C51_C52
import Verif.Props.C53_C56
import Verif.Props.C54
import Verif.Props.C55
import Verif.Props.C58
import Verif.Props.C59
import Verif.Props.C61
import Verif.Props.C62_C63
import Verif.Props.C64
import Verif.Props.C65_C66
import Verif.Props.C67
import Verif.Props.C68
import Verif.Props.C69
import Verif.Props.C70
import Verif.Props.C71
import Verif.Props.C72
import Verif.Props.C73
import Verif.Props.C73_Local
import Verif.Props.C73_Mask
import Verif.Props.C73_Refuse
import Verif.Props.C74
import Verif.Props.C75
import Verif.Props.C76
import Verif.Props.C77
import Verif.Props.C78
import Verif.Props.C79
import Verif.Props.C80
import Verif.Props.C81
import Verif.Props.C82
import Verif.Props.C83
import Verif.Props.C84
import Verif.Props.C85
import Verif.Props.C86
import Verif.Props.C87
import Verif.Props.C88
import Verif.Props.C89
import Verif.Props.C89Complete
import Verif.Props.C89Refuse
import Verif.Props.C90
import Verif.Props.C91
import Verif.Props.C92
import Verif.Props.C92b
import Verif.Props.C93
import Verif.Props.C94
import Verif.Props.C94b
import Verif.Props.C95
import Verif.Props.C96
import Verif.Props.C97
import Verif.Props.C98
import Verif.Props.C99
import Verif.Props.C99b
import Verif.Props.C99c
import Verif.Props.C99d
import Verif.Spec.AxisMove
import Verif.Spec.BatchNorm
import Verif.Spec.Einsum
import Verif.Spec.EquivTest
import Verif.Spec.Erf
import Verif.Spec.Grad
import Verif.Spec.IArr
import Verif.Spec.Index
import Verif.Spec.IndexSymmetry
import Verif.Spec.Irreps
import Verif.Spec.Jaxpr
import Verif.Spec.LegacyTP
import Verif.Spec.LinAlg
import Verif.Spec.LinearSHTP
import Verif.Spec.MLP
import Verif.Spec.Normalisation
import Verif.Spec.Parse
import Verif.Spec.Perm
import Verif.Spec.Pytree
import Verif.Spec.ReducedTP
import Verif.Spec.Rotation
import Verif.Spec.S2
import Verif.Spec.S2fft
import Verif.Spec.SO3
import Verif.Spec.Shape
import Verif.Spec.SphericalHarmonics
import Verif.Spec.SymTP
import Verif.Spec.Sympy
import Verif.Spec.Transformer
import Verif.Spec.Uniform
import Verif.Spec.Voxel
import Verif.Spec.Zoom
