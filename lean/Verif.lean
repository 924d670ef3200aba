import Verif.Lib.SetsProps
import Verif.AST.SubstProps
import Verif.AST.Full
import Verif.AST.Maker
import Verif.AST.RenameProps
import Verif.Search.RulesProps
import Verif.AST.Metas
import Verif.Search.Quant
import Verif.Search.PreInner
import Verif.Search.Tableau
import Verif.Search.TableauSound
import Verif.Search.Skolem
import Verif.Unif.Term
import Verif.Unif.Subst
import Verif.Unif.Machine
import Verif.Unif.Exec
import Verif.Unif.Compute
import Verif.Unif.Strict
import Verif.Unif.Fuel
import Verif.Unif.Props
import Verif.Unif.Ground
import Verif.Unif.Matching
import Verif.Unif.CodeTree
import Verif.Unif.CodeTreeProps
import Verif.Unif.Index
import Verif.Lib.Par
import Verif.Lib.ListModel
import Verif.Glob.ListModel
import Verif.Glob.Tasks
import Verif.Lib.Slice
import Verif.Glob.MapModel
import Verif.Glob.NodeId
import Verif.Search.Clean
import Verif.Search.Reintro
import Verif.Search.Verdict
import Verif.Search.Select
import Verif.Search.Stop
import Verif.Search.Protocol
import Verif.Search.ProtocolEnd
import Verif.Equality.UnionFind
import Verif.Equality.Congruence
import Verif.Equality.CopyPb
import Verif.Equality.LPO
import Verif.Equality.LPOProps
import Verif.Search.Memory
import Verif.Search.StateCopy
import Verif.Search.GlobalUnifier
import Verif.Engine.Elab
import Verif.Engine.ElabProps
import Verif.Engine.ElabSyn
import Verif.Engine.ElabOcc
import Verif.Engine.Problem
import Verif.Engine.ProblemProps
import Verif.Lib.SetsAlias
import Verif.Unif.ElimList
import Verif.Unif.ElimTotal
import Verif.Typing.Inst
import Verif.Typing.Check
import Verif.Typing.CheckProps
import Verif.Mods.Dmt
import Verif.Mods.DmtProps
import Verif.Search.Incremental
import Verif.Search.IncrSubs
import Verif.Unif.IndexGround
import Verif.Search.IncrSearch
import Verif.Search.IncrVerdict
import Verif.Search.IncrGround
import Verif.Search.IncrGroundRun
import Verif.Search.Main
import Verif.Search.MainUnsound
import Verif.Unif.GroundAnswers
import Verif.Search.MainDelta
import Verif.Search.MainGround
import Verif.Search.MainGroundRun
import Verif.Search.MainSound
import Verif.Search.MainLate
import Verif.Search.MainLateRun
import Verif.Mods.Gs3Terms
import Verif.Search.MainProof
import Verif.Search.MainProofSpec
import Verif.Search.MainProofViolated
import Verif.Search.MainProofGround
import Verif.Search.MainProofDelta
import Verif.Mods.Gs3
import Verif.Mods.Gs3Spec
import Verif.Mods.Gs3Props
import Verif.Mods.Rocq
import Verif.Mods.RocqProps
import Verif.Mods.Gs3Violated
import Verif.Mods.DmtRewrite
import Verif.Equality.LPOWf
import Verif.Equality.BseTree
import Verif.Equality.Bse
import Verif.Equality.BseGround
import Verif.Equality.BseRuns
import Verif.Equality.BseSound
import Verif.Equality.BseProps
import Verif.Equality.BseAnswers
import Verif.Unif.Fresh
import Verif.Equality.BseBuild
import Verif.Equality.BseBranch
import Verif.Equality.BseShare
import Verif.Equality.BseExec
import Verif.Typing.Sorted
import Verif.Typing.SortedProps
import Verif.Typing.TypeQuant
import Verif.Typing.TypeRules
import Verif.Equality.SatBuildEx
import Verif.Mods.TptpEx
import Verif.Mods.LambdapiProps
import Verif.Mods.LambdapiContext
import Verif.Parser.LexMain
import Verif.Parser.GrammarProps
import Verif.Parser.PrintMain
import Verif.Search.TableauEq
import Verif.Whole.Ground
import Verif.Whole.Program
import Verif.Whole.Props
import Verif.Whole.Text
import Verif.Whole.Cases
import Verif.Whole.Closed
import Verif.Whole.Delta
import Verif.Whole.DeltaProps
import Verif.Whole.DeltaCases
import Verif.Whole.IndexCase
import Verif.Whole.Proof
import Verif.Mods.RocqContext
import Verif.Mods.RocqContextProps
import Verif.Mods.Assisted
import Verif.Mods.AssistedProps
import Verif.Mods.AssistedHint
import Verif.Search.Output
import Verif.Search.Exchanges
import Verif.Search.IncrProof
import Verif.Search.IncrProofGround
import Verif.Whole.Include
import Verif.Whole.Options
import Verif.Whole.OptionsSettings
import Verif.Whole.OptionsProps
import Verif.Whole.Incr
import Verif.Whole.IncrCases
import Verif.Whole.IncrAnswers
import Verif.Whole.Certificates
import Verif.Whole.CertDelta
import Verif.Search.ProofMetas
import Verif.Unif.Mixed
import Verif.Unif.MixedProps
import Verif.Unif.MixedMono
import Verif.Unif.MixedDisjoint
