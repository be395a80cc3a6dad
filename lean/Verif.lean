import Verif.Props.Huge
import Verif.Props.HugeExact
import Verif.Props.Factor
import Verif.Props.FactorProb
import Verif.Props.Rational
import Verif.Props.Real
import Verif.Props.Decimal
import Verif.Props.Parser
import Verif.Props.Frac
import Verif.Props.Expr
import Verif.Props.Print
import Verif.Props.Dtoa
import Verif.Props.Cli
import Verif.Props.Calc
import Verif.Props.Tex
import Verif.Props.Numeric
import Verif.Props.NumericError
import Verif.Props.Heap
import Verif.Props.Collect
import Verif.Props.Rounded
import Verif.Props.Session
import Verif.Props.Quo
import Verif.Props.QuoPow
import Verif.Props.RatCall
import Verif.Props.TermLess
import Verif.Props.Surd
import Verif.Props.RootMul
import Verif.Props.RootSum
import Verif.Props.RootRing
import Verif.Props.Over
import Verif.Props.OverRat
import Verif.Props.Cost
import Verif.Props.PrintCmd
import Verif.Props.Version
import Verif.Props.OverLine
import Verif.Props.Ends
