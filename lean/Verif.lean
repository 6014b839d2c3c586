import Verif.Model.Traits
import Verif.Model.Interval
import Verif.Spec.Interval
import Verif.Lemmas.Traits
import Verif.Lemmas.Interval
import Verif.Props.Traits
import Verif.Props.Interval
import Verif.Model.IntervalFn
import Verif.Model.ConstantCache
import Verif.Spec.IntervalFn
import Verif.Lemmas.Agm
import Verif.Lemmas.Log
import Verif.Lemmas.Exp
import Verif.Lemmas.ConstantCache
import Verif.Props.IntervalFn
import Verif.Props.CacheExact
import Verif.Model.PolyCoeff
import Verif.Model.Poly
import Verif.Model.PolyGcd
import Verif.Spec.Poly
import Verif.Lemmas.Poly
import Verif.Lemmas.PolyDiv
import Verif.Lemmas.PolyMore
import Verif.Lemmas.Subresultant
import Verif.Lemmas.PolyGcd
import Verif.Props.Poly
import Verif.Props.PolyGcd
import Verif.Model.PolySturm
import Verif.Spec.Sturm
import Verif.Lemmas.Sturm
import Verif.Lemmas.PolySturm
import Verif.Lemmas.Yun
import Verif.Props.PolySturm
import Verif.Props.Yun
import Verif.Model.ModInt
import Verif.Props.ModInt
import Verif.Props.NegativeModulus
import Verif.Model.PrimeTable
import Verif.Model.Util
import Verif.Model.Array2D
import Verif.Lemmas.Primes
import Verif.Props.Util
import Verif.Props.PseudoPrime
import Verif.Props.Array2D
import Verif.Model.Factor
import Verif.Spec.Factor
import Verif.Lemmas.FactorMod
import Verif.Lemmas.Hensel
import Verif.Lemmas.FactorSearch
import Verif.Lemmas.Factor
import Verif.Props.FactorMod
import Verif.Props.Factor
import Verif.Props.FactorFalse
import Verif.Lemmas.Mignotte
import Verif.Lemmas.FactorLift
import Verif.Lemmas.FactorComplete
import Verif.Lemmas.FactorIrr
import Verif.Lemmas.FactorTop
import Verif.Props.FactorIrr
import Verif.Props.FactorTwo
import Verif.Lemmas.FactorProgress
import Verif.Lemmas.GoodPrime
import Verif.Props.FactorProgress
import Verif.Model.AlgNum
import Verif.Spec.AlgNum
import Verif.Lemmas.AlgNum
import Verif.Lemmas.AlgNumBasic
import Verif.Lemmas.AlgNumLoops
import Verif.Props.AlgNum
import Verif.Props.AlgNumLog2
import Verif.Lemmas.FactorDistinct
import Verif.Lemmas.SelectRoot
import Verif.Lemmas.AlgResultant
import Verif.Lemmas.AlgNumOps
import Verif.Lemmas.AlgLeading
import Verif.Lemmas.AlgNumConj
import Verif.Lemmas.FactorRuns
import Verif.Props.AlgNumOps
import Verif.Props.AlgNumFalse
import Verif.Lemmas.AlgNumDegree
import Verif.Lemmas.FactorRuns2
import Verif.Props.AlgNumExact
import Verif.Props.AlgNumTotal
import Verif.Props.AlgNumRem
import Verif.Lemmas.PowInterval
import Verif.Props.AlgNumPow
import Verif.Props.AlgNumRoot
import Verif.Props.AlgNumPowIrr
import Verif.Props.AlgNumPowNeg
import Verif.Model.Lattice
import Verif.Spec.Lattice
import Verif.Lemmas.Lattice
import Verif.Lemmas.LatticeLoop
import Verif.Lemmas.LatticeTerm
import Verif.Props.Lattice
import Verif.Model.Quadratic
import Verif.Spec.Quadratic
import Verif.Lemmas.Quadratic
import Verif.Lemmas.QuadraticCmp
import Verif.Props.Quadratic
import Verif.Model.Python
import Verif.Spec.Python
import Verif.Props.Python
import Verif.Props.PythonIff
import Verif.Props.PythonPow
import Verif.Model.PolyIter
import Verif.Spec.PolyIter
import Verif.Props.PolyIter
import Verif.Model.Display
import Verif.Spec.Display
import Verif.Lemmas.Display
import Verif.Props.Display
import Verif.Props.ExpFalse
import Verif.Props.ExpReturns
import Verif.Model.Modulus
import Verif.Spec.Modulus
import Verif.Props.Modulus
import Verif.Model.Convert
import Verif.Props.Convert
import Verif.Model.OpForms
import Verif.Spec.OpForms
import Verif.Props.OpForms
import Verif.Model.ReducedDivisor
import Verif.Props.ReducedDivisor
import Verif.Props.ExactIff
import Verif.Props.AlgNumSound
import Verif.Model.History
import Verif.Spec.History
import Verif.Props.History
import Verif.Model.MachineInt
import Verif.Lemmas.MachineInt
import Verif.Props.MachineInt
import Verif.Model.Array2DMake
import Verif.Props.Array2DMake
import Verif.Model.NestedMul
import Verif.Props.NestedMul
import Verif.Model.SqrtBound
import Verif.Props.SqrtBound
import Verif.Lemmas.SelectExact
import Verif.Props.AlgNumIff
import Verif.Lemmas.SelectWithin
import Verif.Props.AlgNumOrder
import Verif.Lemmas.ShrinkAt
import Verif.Props.AlgNumConsistent
import Verif.Props.AbsSubIff
import Verif.Props.RemIff
import Verif.Props.AlgNumProduct
import Verif.Props.AlgNumProductIff
import Verif.Props.AlgNumQuotient
import Verif.Props.IntervalPow
import Verif.Lemmas.LogTight
import Verif.Lemmas.ExpTight
import Verif.Lemmas.ExpWidth
import Verif.Props.Tight
import Verif.Props.TightLimit
import Verif.Props.AlgNumPowReturns
import Verif.Spec.Narrowest
import Verif.Props.Narrowest
import Verif.Lemmas.AgmWidth
import Verif.Props.AgmWidth
import Verif.Props.NearestExact
import Verif.Spec.IntervalExpr
import Verif.Lemmas.IntervalExpr
import Verif.Props.IntervalExpr
import Verif.Props.PrimePowerExact
import Verif.Model.CacheIndex
import Verif.Lemmas.CacheIndex
import Verif.Props.CacheIndex
import Verif.Spec.Roots
import Verif.Lemmas.Roots
import Verif.Props.Roots
import Verif.Model.IntervalProgram
import Verif.Spec.IntervalProgram
import Verif.Props.IntervalProgram
import Verif.Props.IntervalPowNeg
import Verif.Props.Hash
import Verif.Props.BigPow
import Verif.Props.Array2DDisplay
import Verif.Spec.HistoryEnds
import Verif.Props.HistoryEnds
import Verif.Model.MachineLimits
import Verif.Lemmas.MachineLimits
import Verif.Props.MachineLimits
import Verif.Model.PolyParts
import Verif.Props.PolyParts
import Verif.Model.MachinePoly
import Verif.Spec.MachinePoly
import Verif.Lemmas.MachinePoly
import Verif.Lemmas.MachinePolyFit
import Verif.Lemmas.MachinePolyCut
import Verif.Props.MachinePoly
import Verif.Model.MachineContent
import Verif.Spec.MachineContent
import Verif.Lemmas.MachineContent
import Verif.Props.MachineContent
import Verif.Model.MachineGcd
import Verif.Lemmas.MachineGcd
import Verif.Lemmas.MachineAgree
import Verif.Props.MachineGcd
import Verif.Spec.MachineWide
import Verif.Lemmas.MachineWide
import Verif.Props.MachineWide
import Verif.Lemmas.MachinePolyBounds
import Verif.Props.MachinePolyBounds
import Verif.Spec.MachineProgram
import Verif.Model.MachineProgram
import Verif.Lemmas.MachineProgram
import Verif.Props.MachineProgram
import Verif.Model.ModPoly
import Verif.Model.ModFactor
import Verif.Spec.ModPoly
import Verif.Spec.ModFactor
import Verif.Lemmas.ModPoly
import Verif.Lemmas.ModFactor
import Verif.Props.ModPoly
import Verif.Props.ModFactor
import Verif.Model.ModResultant
import Verif.Lemmas.ModResultant
import Verif.Props.ModResultant
import Verif.Model.LatticeArray
import Verif.Lemmas.LatticeArray
import Verif.Props.LatticeArray
import Verif.Model.CacheLock
import Verif.Lemmas.CacheLock
import Verif.Props.CacheLock
import Verif.Model.Array2DMut
import Verif.Spec.Array2DMut
import Verif.Lemmas.Array2DMut
import Verif.Props.Array2DMut
import Verif.Model.Array2DWords
import Verif.Spec.Array2DWords
import Verif.Lemmas.Array2DWords
import Verif.Props.Array2DWords
import Verif.Props.AlgNumRecip
import Verif.Model.TreePrint
import Verif.Spec.TreePrint
import Verif.Lemmas.TreePrint
import Verif.Props.TreePrint
import Verif.Model.FactorTreePrint
import Verif.Lemmas.FactorTreePrint
import Verif.Props.FactorTreePrint
import Verif.Props.MachinePow
import Verif.Props.MachinePseudoDiv
