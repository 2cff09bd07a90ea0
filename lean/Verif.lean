import Verif.Props.Polynomial
import Verif.Props.Misc
import Verif.Props.Expr
import Verif.Props.ProductRule
import Verif.Props.MatrixSort
import Verif.Props.Squash
import Verif.Props.Dreadnaut
import Verif.Props.Convert
import Verif.Props.LibraryCall
import Verif.Props.Decomp
import Verif.Props.Primary
import Verif.Props.Splitting
import Verif.Props.SplitDecomp
import Verif.Props.Normaliz
import Verif.Props.Geometric
import Verif.Props.Worker
import Verif.Props.Scheduler
import Verif.Props.NanRetry
import Verif.Props.Orders
import Verif.Props.GenVec
import Verif.Props.AdjustN
import Verif.Props.Series
import Verif.Props.Subtraction
import Verif.Props.Parts
import Verif.Props.Expansion
import Verif.Props.Regions
import Verif.Props.Template
import Verif.Props.FromGraph
import Verif.Props.LoopCommon
import Verif.Props.FromProps
import Verif.Props.Variance
import Verif.Props.ExprTotal
import Verif.Props.SubTotal
import Verif.Props.Exparse
import Verif.Props.Uncertainties
import Verif.Props.Refine
import Verif.Props.Deform
import Verif.Props.Qmc
import Verif.Props.Func
import Verif.Props.Contour
import Verif.Props.Sector
import Verif.Props.FormDef
import Verif.Props.SeriesText
import Verif.Props.DistText
import Verif.Props.Numerator
import Verif.Props.LoopMeasure
import Verif.Props.ExtraReg
import Verif.Props.LeadingOrder
import Verif.Props.SectorReg
import Verif.Props.Formset
import Verif.Props.Iterate
import Verif.Props.Params
import Verif.Props.Package
import Verif.Props.LoopPackage
import Verif.Props.Amplitude
import Verif.Props.Fan
import Verif.Props.Hull
import Verif.Props.Strategies
import Verif.Props.FindRegions
import Verif.Props.Coefficient
import Verif.Props.Transforms
import Verif.Props.Sampler
import Verif.Props.Container
import Verif.Props.Pinch
import Verif.Props.ParseRegions
import Verif.Props.Prefactor
