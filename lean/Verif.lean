import Verif.Props.NatArith
import Verif.Props.NatFun
import Verif.Props.NatText
import Verif.Props.BigInt
import Verif.Props.Residue
import Verif.Props.Prime
import Verif.Props.PrimeMore
import Verif.Props.PrimeAll
import Verif.Props.RandWin
import Verif.Props.Laws
import Verif.Props.FloatLaws
import Verif.Props.ModSqrtAny
import Verif.Props.ModSqrtOne
import Verif.Props.FloatIeee
import Verif.Model.ErrKind
import Verif.Props.ErrKind
import Verif.Props.Corners
import Verif.Props.DivHang
import Verif.Props.NonCanon
import Verif.Props.IntSign
import Verif.Props.NonCanonFun
import Verif.Props.Heap
import Verif.Props.Rat
import Verif.Props.RatFloat
import Verif.Props.Float
import Verif.Props.FloatMore
import Verif.Props.Rand
import Verif.Props.FloatText
import Verif.Props.FloatTextTotal
import Verif.Props.FloatParse
import Verif.Props.FloatHeap
import Verif.Props.Arith
import Verif.Props.RatHeap
import Verif.Props.IntHeap
import Verif.Props.Import
import Verif.Props.RandClone
import Verif.Props.NatProg
import Verif.Props.IntProg
import Verif.Props.RatProg
import Verif.Props.FloatProg
import Verif.Props.FloatProgExt
import Verif.Props.FunHeap
import Verif.Props.RandomUniform
import Verif.Props.PrimeBound
import Verif.Props.TextId
import Verif.Props.Builds
import Verif.Props.RatDecimal
import Verif.Props.TextStd
import Verif.Props.FloatRoundTrip
import Verif.Props.NonCanonExp
import Verif.Props.FloatMachine
import Verif.Props.FloatMachineLow
import Verif.Props.JacobiEven
import Verif.Props.IntNegZero
import Verif.Props.FloatMachine32
import Verif.Props.FloatMachineCmp
import Verif.Props.Machine
import Verif.Props.IntPadded
import Verif.Model.ErrMsg
import Verif.Props.ErrMsg
import Verif.Model.RandMsg
import Verif.Props.RandMsg
import Verif.Props.RatMachine
import Verif.Props.Crypto
import Verif.Props.RandText
import Verif.Props.RandPeriod
import Verif.Props.RandTwist
import Verif.Props.RandCarry
import Verif.Conform.NatTests
import Verif.Conform.IntTests
import Verif.Lemmas.TwistPoly
import Verif.Lemmas.TwistPresets
import Verif.Lemmas.TwistLits32
import Verif.Lemmas.TwistLits64
import Verif.Lemmas.Twist32Part1
import Verif.Lemmas.Twist32Part2
import Verif.Lemmas.Twist32Part3
import Verif.Lemmas.Twist32Part4
import Verif.Lemmas.Twist64Part1
import Verif.Lemmas.Twist64Part2
import Verif.Lemmas.Twist64Part3
import Verif.Lemmas.Twist64Part4
import Verif.Lemmas.TwistShift
import Verif.Lemmas.TwistBits
import Verif.Props.RandMersenne
import Verif.Props.PrimeSieve
import Verif.Props.RandHull
import Verif.Props.PrimePossible
import Verif.Props.RandOneWord
import Verif.Props.PrimeRounds
import Verif.Props.WinWide
