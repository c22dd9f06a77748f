import Verif.Base
import Verif.Hash
import Verif.HashLemmas
import Verif.HashProps
import Verif.HashTree
import Verif.HashTreeLemmas
import Verif.HashTreeLemmas2
import Verif.HashTreeProps
import Verif.Rounding
import Verif.RoundingProps
import Verif.GoMap
import Verif.References
import Verif.ReferencesLemmas
import Verif.ReferencesProps
import Verif.Database
import Verif.DatabaseLemmas
import Verif.DatabaseLemmas2
import Verif.DatabaseLemmas3
import Verif.DatabaseLemmas4
import Verif.DatabaseHistory
import Verif.DatabaseLemmas5
import Verif.DatabaseSample
import Verif.DatabaseProps
import Verif.DatabaseProps2
import Verif.DatabaseProps3
import Verif.DatabaseProps4
import Verif.DatabaseProps5
import Verif.AuditProps
import Verif.Ast
import Verif.AstLemmas
import Verif.AstLemmas2
import Verif.AstMono
import Verif.AstTerm
import Verif.AstSpec
import Verif.AstJust
import Verif.AstLang
import Verif.AstPeg
import Verif.AstSkip
import Verif.AstRename
import Verif.AstShipped
import Verif.AstShippedLemmas
import Verif.AstShippedEval
import Verif.AstStrip
import Verif.AstShippedSpec
import Verif.AstShippedSem
import Verif.AstShippedTok
import Verif.AstShippedRun
import Verif.AstPropsShipped
import Verif.AstProps
import Verif.AstProps2
import Verif.Query
import Verif.QuerySpec
import Verif.QueryLemmas
import Verif.QueryProps
import Verif.Interp
import Verif.InterpSpec
import Verif.InterpLemmas
import Verif.InterpScope
import Verif.InterpSem
import Verif.InterpPure
import Verif.InterpCalls
import Verif.InterpRuns
import Verif.InterpEffects
import Verif.InterpAttach
import Verif.InterpProps
import Verif.Coverage
import Verif.CoverageSpec
import Verif.CoverageLemmas
import Verif.CoverageLemmas2
import Verif.CoveragePlain
import Verif.CoverageOnce
import Verif.CoverageProps
import Verif.TreeFetch
import Verif.TreeFetchProps
import Verif.Concurrent
import Verif.ConcurrentSpec
import Verif.ConcurrentSafe
import Verif.ConcurrentLemmas
import Verif.ConcurrentProps
import Verif.PowerLoss
import Verif.PowerLossProps
import Verif.DecodeSpec
import Verif.DecodeLemmas
import Verif.DecodeProps
import Verif.DecodeTail
import Verif.DecodeTailProps
import Verif.Snapshot
import Verif.SnapshotLemmas
import Verif.SnapshotProps
import Verif.Builders
import Verif.BuildersSpec
import Verif.BuildersLemmas
import Verif.BuildersProps
import Verif.Components
import Verif.ComponentsLemmas
import Verif.ComponentsProps
import Verif.QueryBuilders
import Verif.QueryBuildersSpec
import Verif.QueryBuildersLemmas
import Verif.QueryBuildersProps
import Verif.InterpBuilders
import Verif.InterpBuildersSpec
import Verif.InterpBuildersLemmas
import Verif.InterpBuildersRun
import Verif.InterpBuildersProps
import Verif.TreeBuilders
import Verif.TreeBuildersSpec
import Verif.TreeBuildersLemmas
import Verif.TreeRead
import Verif.TreeBuildersRun
import Verif.TreeBuildersProps
import Verif.DataBuilders
import Verif.DataBuildersSpec
import Verif.DataBuildersLemmas
import Verif.DataBuildersProps
import Verif.BuilderReuse
import Verif.BuilderReuseSpec
import Verif.BuilderReuseLemmas
import Verif.BuilderReuseProps
import Verif.Memory
import Verif.MemorySpec
import Verif.MemoryLemmas
import Verif.MemoryProps
import Verif.Buffers
import Verif.BuffersSpec
import Verif.BuffersLemmas
import Verif.BuffersProps
import Verif.GrammarTextSpec
import Verif.GrammarTextLemmas
import Verif.GrammarTextTokens
import Verif.GrammarTextProps
import Verif.Handed
import Verif.HandedSpec
import Verif.HandedLemmas
import Verif.HandedProps
import Verif.AstRefSpec
import Verif.AstRef
import Verif.AstRef2
import Verif.AstRef3
import Verif.AstRef4
import Verif.AstRefProps
import Verif.AstRefProps2
import Verif.AstRecSpec
import Verif.AstRec
import Verif.AstRec2
import Verif.AstRec3
import Verif.AstRecProps
import Verif.AstRename2
import Verif.AstRecProps2
import Verif.AstPartsSpec
import Verif.AstParts
import Verif.AstPartsProps
import Verif.SnapshotOps
import Verif.OpenRace
import Verif.OpenRaceLemmas
import Verif.OpenRaceSample
import Verif.OpenRaceProps
import Verif.Sessions
import Verif.SessionsSpec
import Verif.SessionsTwin
import Verif.SessionsJoin
import Verif.SessionsAlone
import Verif.SessionsSample
import Verif.SessionsProps
import Verif.Goroutines
import Verif.GoroutinesSpec
import Verif.GoroutinesLemmas
import Verif.GoroutinesCalls
import Verif.GoroutinesTurns
import Verif.GoroutinesProps
import Verif.GoroutinesApart
import Verif.GoroutinesApart2
import Verif.GoroutinesApartProps
import Verif.AstEscapeSpec
import Verif.AstEscapeProps
import Verif.TreeFetchSpec
import Verif.TreeFetchProps2
import Verif.InterpTraceSpec
import Verif.InterpTraceProps
import Verif.EndsProps
import Verif.SessionsWindow
import Verif.ParametersProps
import Verif.PathsProps
import Verif.CrashProps
import Verif.CanonProps
import Verif.DirsProps
import Verif.DescriptorsProps
import Verif.AstBare
import Verif.CoverageOrderSpec
import Verif.CoverageOrder
import Verif.CoverageOrderLemmas
import Verif.CoverageOrderLemmas2
import Verif.CoverageOrderProps
import Verif.AstCost
import Verif.AstCostLemmas
import Verif.AstCostBound
import Verif.AstCostLower
import Verif.AstDepth
import Verif.AstCostProps
import Verif.AstCostShipped
import Verif.AstCostMono
import Verif.AstCostAny
import Verif.AstCostProps2
import Verif.AstLeftLemmas
import Verif.AstLeftRec
import Verif.AstLeftProps
import Verif.AstLeftTerm
import Verif.AstLeftProps2
import Verif.AstLeftPeg
import Verif.AstLeftProps3
import Verif.AstLeftTwo
import Verif.AstLeftTwoRun
import Verif.AstLeftProps4
import Verif.AstLeftMany
import Verif.AstLeftProps5
import Verif.AstLeftMutual
import Verif.AstLeftMutualRun
import Verif.AstLeftProps6
import Verif.AstHollowProps
import Verif.AstNamed
import Verif.AstNamedProps
import Verif.AstEquivar
import Verif.AstEquivarRun
import Verif.AstEquivarProps
import Verif.AstRecode
import Verif.AstRecodeProps
import Verif.CoverageRecode
import Verif.CoverageRecodeProps
import Verif.QueryRecode
import Verif.QueryRecodeProps
import Verif.InterpRename
import Verif.InterpRenameProps
import Verif.InterpValues
import Verif.InterpValuesProps
import Verif.InterpUses
import Verif.InterpUsesProps
