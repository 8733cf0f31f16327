import Verif.Props.C01_Product
import Verif.Props.C02_Clifford
import Verif.Props.C03_TypedProducts
import Verif.Props.C04_C05_SumsDifferences
import Verif.Props.C06_C08_Unary
import Verif.Props.C09_Access
import Verif.Props.C13_C15_Norms
import Verif.Props.C13_C16_Magnitude
import Verif.Props.C17_C18_Inverse
import Verif.Props.C19_Isomorphisms
import Verif.Props.C22_Rotation
import Verif.Props.C35_C36_Structure
import Verif.Props.C20_Exp
import Verif.Props.C21_C37_ExpMv
import Verif.Props.C23_C24_LogSqrt
import Verif.Props.C10_C12_NullValid
import Verif.Props.C25_C28_Compare
import Verif.Props.C27_Reject
import Verif.Props.C27_Range
import Verif.Props.C32_Bitwise
import Verif.Props.C33_Rounding
import Verif.Props.C34_Direction
import Verif.Props.C29_Extraction
import Verif.Props.C30_Format
import Verif.Props.C31_RoundTrip
import Verif.Props.C41_Sequences
import Verif.Props.C42_Expressions
import Verif.Props.C44_ExprRounding
import Verif.Props.C45_Composition
import Verif.Props.C46_ExpAccuracy
import Verif.Spec.NegClifford
import Verif.Props.C47_ExpMvMeaning
import Verif.Props.C38_Constants
import Verif.Props.C39_C40_Symmetry
import Verif.Props.C48_Inverse
import Verif.Props.C49_Exact
import Verif.Props.C50_Promotion
import Verif.Lemmas.LogEst
import Verif.Lemmas.LogF64
import Verif.Props.C51_LogAccuracy
import Verif.Lemmas.AxisF64
import Verif.Props.C52_Axis
import Verif.Props.C53_LogEverywhere
import Verif.Lemmas.ScaleF64
import Verif.Props.C54_Units
import Verif.Spec.Grades
import Verif.Model.Traits
import Verif.Props.C55_Types
import Verif.Lemmas.CplxF64
import Verif.Lemmas.InverseMvF64
import Verif.Props.C56_GeneralInverse
import Verif.Props.C56_InverseProduct
import Verif.Model.Fused
import Verif.Lemmas.Fused
import Verif.Lemmas.FusedExpr
import Verif.Props.C57_Contraction
import Verif.Props.C57_Witness
import Verif.Props.C34_Everywhere
import Verif.Lemmas.RealLen
import Verif.Spec.Rotation
import Verif.Lemmas.RigidEst
import Verif.Props.C58_RigidBody
import Verif.Props.C58_Angle
import Verif.Lemmas.RotorEst
import Verif.Props.C59_Rotor
import Verif.Props.C60_Checks
import Verif.Props.C60_Close
import Verif.Lemmas.AmpF64
import Verif.Props.C61_Amplitude
import Verif.Props.C61_C62_Branch
import Verif.Lemmas.ExpMvF64
import Verif.Props.C63_ExpMvF64
import Verif.Model.Power
import Verif.Props.C08_Readme
import Verif.Props.C32_ProductSigns
import Verif.Props.C64_Powers
import Verif.Props.C65_Solve
import Verif.Props.C65_SolveF64
import Verif.Props.C65_SolveMv
import Verif.Props.C66_Geometry
import Verif.Props.C66_Orthogonal
import Verif.Props.C66_Isometries
import Verif.Props.C66_CoreF64
import Verif.Props.C66_GeometryF64
import Verif.Props.C34_Total
import Verif.Props.C34_Null
import Verif.Lemmas.Renorm
import Verif.Props.C67_Attitude
import Verif.Props.C46_Total
import Verif.Props.C68_Linear
import Verif.Props.C69_StdComplex
import Verif.Lemmas.Cut
import Verif.Props.C70_Cut
import Verif.Model.Stream
import Verif.Props.C71_Full
import Verif.Props.C72_Throw
import Verif.Props.C73_AnyText
import Verif.Props.C74_Sequence
import Verif.Props.C75_Interpolate
import Verif.Props.C76_Lines
import Verif.Props.C77_Power
import Verif.Props.C78_Slerp
import Verif.Props.C79_AngleBetween
import Verif.Props.C80_Polar
import Verif.Props.C81_Gyro
import Verif.Props.C82_Device
import Verif.Props.C83_Locale
import Verif.Props.C84_AnyRounding
import Verif.Props.C85_RefExp
import Verif.Props.C86_Harness
import Verif.Props.C87_Grouping
import Verif.Props.C88_Counts
import Verif.Props.C89_Flags
import Verif.Props.C90_NearChain
import Verif.Props.C55_Table
import Verif.Props.C91_Axes
import Verif.Props.C91_Flips
import Verif.Props.C92_References
import Verif.Props.C93_ProductCheck
import Verif.Props.C94_Ieee
import Verif.Props.C95_Numerals
import Verif.Props.C96_Inexact
import Verif.Props.C96_Functions
import Verif.Props.C96_InverseExact
import Verif.Props.C97_Words
import Verif.Model.GroupSizes
import Verif.Lemmas.GroupSizes
import Verif.Props.C98_GroupSizes
import Verif.Model.NoSkip
import Verif.Props.C99_NoSkip
import Verif.Props.C100_Adjacent
