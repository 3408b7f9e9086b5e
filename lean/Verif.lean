import Verif.Props.Collections
import Verif.Props.Relation
import Verif.Props.Dataflow
import Verif.Props.Iteration
import Verif.Props.Provenance
import Verif.Props.Proofs
import Verif.Props.Dual
import Verif.Props.Sdd
import Verif.Props.Strat
import Verif.Props.Aggregate
import Verif.Props.Back
import Verif.Props.Expr
import Verif.Props.Tags
import Verif.Props.Ram
import Verif.Props.Front
import Verif.Props.Arith
import Verif.Props.Duration
import Verif.Props.Plan
import Verif.Props.Strata
import Verif.Props.Exec
import Verif.Props.Context
import Verif.Props.EndToEnd
import Verif.Props.Worlds
import Verif.Spec.WorldExec
import Verif.Proof.WorldBuild
import Verif.Proof.WorldExec
import Verif.Props.WorldExec
import Verif.Model.AggRuntime
import Verif.Spec.WorldAgg
import Verif.Proof.WorldAgg
import Verif.Proof.WorldAggs
import Verif.Props.WorldAgg
import Verif.Spec.WorldProgram
import Verif.Proof.WorldPlan
import Verif.Proof.WorldCompile
import Verif.Props.WorldProgram
import Verif.Model.Boundness
import Verif.Spec.Boundness
import Verif.Proof.Boundness
import Verif.Proof.BoundnessSound
import Verif.Proof.BoundnessMain
import Verif.Proof.BoundnessRule
import Verif.Proof.BoundnessFinite
import Verif.Proof.BoundnessAccept
import Verif.Proof.BoundnessCount
import Verif.Props.Boundness
import Verif.Model.Demand
import Verif.Spec.Demand
import Verif.Proof.Demand
import Verif.Proof.DemandSips
import Verif.Proof.DemandMain
import Verif.Proof.DemandBound
import Verif.Props.Demand
import Verif.Model.TypeInfer
import Verif.Spec.TypeInfer
import Verif.Proof.TypeSet
import Verif.Proof.TypeStep
import Verif.Proof.TypeLoop
import Verif.Proof.TypeKeep
import Verif.Proof.TypeFix
import Verif.Proof.TypeSound
import Verif.Proof.TypeDecl
import Verif.Proof.TypeProgram
import Verif.Props.TypeInfer
import Verif.Model.Foreign
import Verif.Proof.Foreign
import Verif.Proof.ForeignCall
import Verif.Props.Foreign
import Verif.Model.SoftCmp
import Verif.Props.SoftCmp
import Verif.Model.Entity
import Verif.Spec.Entity
import Verif.Proof.Entity
import Verif.Proof.EntityMake
import Verif.Props.Entity
import Verif.Model.Loading
import Verif.Spec.Loading
import Verif.Proof.Loading
import Verif.Proof.LoadingOrder
import Verif.Props.Loading
import Verif.Model.Constants
import Verif.Spec.Constants
import Verif.Proof.Constants
import Verif.Props.Constants
import Verif.Model.TopBottom
import Verif.Spec.TopBottom
import Verif.Proof.TopBottom
import Verif.Proof.TopBottomOps
import Verif.Props.TopBottom
import Verif.Model.TaggedRule
import Verif.Spec.TaggedRule
import Verif.Proof.TaggedRule
import Verif.Props.TaggedRule
import Verif.Props.TaggedRule2
import Verif.Props.TaggedRule3
import Verif.Model.InputTags
import Verif.Spec.InputTags
import Verif.Proof.InputTags
import Verif.Proof.Exclusion
import Verif.Props.InputTags
import Verif.Props.Exclusion
import Verif.Model.Csv
import Verif.Spec.Csv
import Verif.Proof.Csv
import Verif.Props.Csv
import Verif.Model.Statics
import Verif.Proof.Statics
import Verif.Proof.Statics2
import Verif.Proof.Statics3
import Verif.Proof.Statics4
import Verif.Props.Statics
import Verif.Model.StringJoin
import Verif.Spec.StringJoin
import Verif.Proof.StringJoin
import Verif.Props.StringJoin
import Verif.Model.WeightedAgg
import Verif.Spec.WeightedAgg
import Verif.Proof.WeightedAgg
import Verif.Proof.WeightedAgg2
import Verif.Props.WeightedAgg
import Verif.Model.Query
import Verif.Spec.Query
import Verif.Proof.Query
import Verif.Props.Query
import Verif.Model.Literal
import Verif.Spec.Literal
import Verif.Proof.Literal
import Verif.Props.Literal
import Verif.Model.Import
import Verif.Spec.Import
import Verif.Proof.Import
import Verif.Props.Import
import Verif.Model.Attr
import Verif.Spec.Attr
import Verif.Proof.Attr
import Verif.Props.Attr
import Verif.Model.FileAttr
import Verif.Spec.FileAttr
import Verif.Proof.FileAttr
import Verif.Props.FileAttr
import Verif.Proof.BoundnessAgg
import Verif.Model.StaticAgg
import Verif.Spec.StaticAgg
import Verif.Proof.StaticAgg
import Verif.Props.StaticAgg
import Verif.Model.StaticExpr
import Verif.Spec.StaticExpr
import Verif.Proof.StaticExpr
import Verif.Props.StaticExpr
import Verif.Model.Grammar
import Verif.Spec.Grammar
import Verif.Proof.Grammar
import Verif.Proof.GrammarChain
import Verif.Proof.GrammarFormula
import Verif.Props.Grammar
import Verif.Model.Lexer
import Verif.Spec.Lexer
import Verif.Proof.LexerRe
import Verif.Proof.LexerShape
import Verif.Proof.Lexer
import Verif.Proof.LexerLayout
import Verif.Proof.LexerAngle
import Verif.Proof.LexerComment
import Verif.Proof.LexerExpr
import Verif.Props.Lexer
import Verif.Proof.LexerKinds
import Verif.Proof.LexerSpecialized
import Verif.Model.Locations
import Verif.Spec.Locations
import Verif.Proof.Locations
import Verif.Props.Locations
import Verif.Model.InputMapping
import Verif.Spec.InputMapping
import Verif.Proof.InputMapping
import Verif.Proof.InputFacts
import Verif.Proof.InputDrawn
import Verif.Props.InputMapping
import Verif.Model.ListFacts
import Verif.Spec.ListFacts
import Verif.Proof.ListFacts
import Verif.Props.ListFacts
import Verif.Model.ForwardOutput
import Verif.Spec.ForwardOutput
import Verif.Proof.ForwardOutput
import Verif.Props.ForwardOutput
import Verif.Model.ContextState
import Verif.Spec.ContextState
import Verif.Proof.ContextState
import Verif.Props.ContextState
import Verif.Model.Monitored
import Verif.Spec.Monitored
import Verif.Proof.Monitored
import Verif.Props.Monitored
import Verif.Model.DumpProofs
import Verif.Spec.DumpProofs
import Verif.Proof.DumpProofs
import Verif.Props.DumpProofs
import Verif.Model.Declare
import Verif.Spec.Declare
import Verif.Proof.Declare
import Verif.Props.Declare
import Verif.Model.Warnings
import Verif.Spec.Warnings
import Verif.Proof.Warnings
import Verif.Props.Warnings
import Verif.Model.MacroSource
import Verif.Spec.MacroSource
import Verif.Proof.MacroSource
import Verif.Props.MacroSource
import Verif.Model.QuantCheck
import Verif.Spec.QuantCheck
import Verif.Proof.QuantCheck
import Verif.Props.QuantCheck
import Verif.Model.Destruct
import Verif.Spec.Destruct
import Verif.Proof.Destruct
import Verif.Props.Destruct
