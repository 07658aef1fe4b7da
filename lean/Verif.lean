import Verif.Props.Dofs
import Verif.Props.Tabulation
import Verif.Props.Tabulation2
import Verif.Props.Tabulation3
import Verif.Props.Leaves
import Verif.Props.TabExamples
import Verif.Props.PointEval
import Verif.Props.Perms
import Verif.Props.PermTree
import Verif.Props.Dual
import Verif.Props.Quadrature
import Verif.Props.QuadOrient
import Verif.Props.Restrict
import Verif.Props.Piola
import Verif.Props.Zany
import Verif.Props.Zany2
import Verif.Props.ZanyExamples
import Verif.Props.Layout
import Verif.Props.PiolaElements
import Verif.Props.StressElements
import Verif.Props.UflList
import Verif.Props.UflTree
import Verif.Props.Degree
import Verif.Props.FnMapping
import Verif.Props.FormDegree
import Verif.Props.UflKeywords
import Verif.Props.Interpolate
import Verif.Props.Trace
import Verif.Props.Turn
import Verif.Props.Independent
import Verif.Props.FiatEquivalent
import Verif.Props.QuadratureElement
import Verif.Props.UflQuery
import Verif.Props.UflSpace
import Verif.Props.UflOperators
import Verif.Props.Smooth
import Verif.Props.SmoothExamples
import Verif.Props.UflData
import Verif.Props.Traction
import Verif.Props.SmoothSplit
import Verif.Props.SmoothSplitExamples
import Verif.Props.VectorContinuity
import Verif.Spec.FreeIndices
import Verif.Lemmas.FreeIndices
import Verif.Lemmas.FreeEval
import Verif.Props.FreeIndices
import Verif.Props.UflFamilyForm
import Verif.Props.History
import Verif.Props.UflPolynomials
import Verif.Props.UflRegistry
import Verif.Props.UflText
import Verif.Props.Separable
import Verif.Props.EntityPoint
import Verif.Props.Kronecker
import Verif.Props.Exact
import Verif.Props.UflPickle
import Verif.Props.Complete
import Verif.Props.Unity
import Verif.Props.Complex
import Verif.Props.DeRham
import Verif.Props.DeRham3
import Verif.Props.DeRham4
import Verif.Props.DeRham5
import Verif.Props.DeRham6
import Verif.Props.DeRham7
import Verif.Props.DeRham8
import Verif.Props.DeRham9
import Verif.Props.DeRham10
import Verif.Props.UflComponent
import Verif.Props.UflConstant
import Verif.Props.UflSymmetry
import Verif.Props.UflProduct
import Verif.Props.UflDegree
import Verif.Props.Serendipity
import Verif.Props.Serendipity2
import Verif.Props.Sympy2gem
import Verif.Props.Runtime
import Verif.Props.Support
import Verif.Props.SupportExamples
import Verif.Props.Closure
import Verif.Props.Mapping
