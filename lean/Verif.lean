import Verif.Out
import Verif.Model.Lib
import Verif.Model.Iterators
import Verif.Model.Matrix
import Verif.Model.Project
import Verif.Model.Tensorize
import Verif.Model.Inner
import Verif.Model.Hermite
import Verif.Model.Transform
import Verif.Model.Quad
import Verif.Spec.IndexSets
import Verif.Spec.Protocol
import Verif.Props.IndexSets
import Verif.Props.Blocks
import Verif.Props.Inner
import Verif.Props.Transform
import Verif.Props.Orthonormal
import Verif.Model.BoostMat
import Verif.Model.Varf
import Verif.Props.Triple
import Verif.Props.Varf
import Verif.Props.VarfProduct
import Verif.Props.Varfd
import Verif.Props.Sparse
import Verif.Props.Converters
import Verif.Props.Discretize
import Verif.Props.FinestCommon
import Verif.Props.Function
import Verif.Props.Stats
import Verif.Props.Position
import Verif.Props.Series
import Verif.Props.ToCross
import Verif.Props.ToFunction
import Verif.Props.Arithmetic
import Verif.Props.Operator
import Verif.Props.Cache
import Verif.Model.QuadObject
import Verif.Spec.Quad
import Verif.Lemmas.QuadObject
import Verif.Lemmas.QuadProject
import Verif.Lemmas.QuadTensorize
import Verif.Lemmas.QuadIntegrate
import Verif.Props.PositionInit
import Verif.Props.QuadIntegrate
import Verif.Lemmas.QuadEval
import Verif.Props.QuadEval
import Verif.Lemmas.SeriesTensorize
import Verif.Lemmas.QuadTransform
import Verif.Props.SeriesTensorize
import Verif.Props.QuadTransform
import Verif.Spec.Form
import Verif.Model.VarfObject
import Verif.Lemmas.VarfTensorize
import Verif.Lemmas.VarfBlocks
import Verif.Lemmas.QuadVarf
import Verif.Props.VarfTensorize
import Verif.Props.QuadVarf
import Verif.Lemmas.QuadVarfd
import Verif.Lemmas.DiscretizeOp
import Verif.Props.QuadVarfd
import Verif.Props.DiscretizeOp
import Verif.Model.SeriesProject
import Verif.Spec.SeriesProject
import Verif.Lemmas.SeriesProject
import Verif.Props.SeriesProject
import Verif.Model.QuadTensorize
import Verif.Spec.QuadTensorize
import Verif.Lemmas.QuadProduct
import Verif.Props.QuadProduct
import Verif.Model.Solve
import Verif.Spec.Solve
import Verif.Lemmas.Solve
import Verif.Props.Solve
import Verif.Spec.OperatorAlgebra
import Verif.Spec.Smooth
import Verif.Model.OperatorAlgebra
import Verif.Model.DiscretizeMap
import Verif.Lemmas.OperatorAlgebra
import Verif.Lemmas.OperatorLeibniz
import Verif.Props.OperatorAlgebra
import Verif.Props.DiscretizeMap
import Verif.Spec.Equations
import Verif.Model.Equations
import Verif.Lemmas.Equations
import Verif.Lemmas.Integral
import Verif.Props.Equations
import Verif.Model.QuadConstructors
import Verif.Spec.Rules
import Verif.Lemmas.Rules
import Verif.Props.QuadConstructors
import Verif.Model.QuadNorm
import Verif.Spec.Flat
import Verif.Lemmas.Flat
import Verif.Props.QuadNorm
import Verif.Spec.Spectrum
import Verif.Lemmas.Spectrum
import Verif.Props.Spectrum
import Verif.Spec.SpectrumKept
import Verif.Props.SpectrumKept
import Verif.Props.SpectrumKeptLine
import Verif.Props.DegreeExit
import Verif.Props.DegreeExitArrays
import Verif.Props.DegreeExitObject
import Verif.Model.Equality
import Verif.Lemmas.Equality
import Verif.Props.Equality
import Verif.Model.CompQuad
import Verif.Props.CompQuad
import Verif.Lemmas.GaussRule
import Verif.Props.GaussRule
import Verif.Model.Core
import Verif.Spec.Core
import Verif.Lemmas.Core
import Verif.Props.Core
import Verif.Props.CoreForms
import Verif.Props.QuadErrors
import Verif.Props.Plot
import Verif.Props.Streams
import Verif.Props.FunctionObject
import Verif.Props.SolveGaussian
import Verif.Props.Rounding
import Verif.Props.CacheError
import Verif.Props.Eigs
import Verif.Props.Pictures
import Verif.Props.RoundedVarf
import Verif.Props.Correlated
import Verif.Props.NewtonCotes
import Verif.Props.RoundedVarfd
import Verif.Props.DropError
import Verif.Props.DropErrorBlocks
import Verif.Props.DropErrorMap
import Verif.Axioms
