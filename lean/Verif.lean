import Verif.Model.Py
import Verif.Model.Defs
import Verif.Model.UrlParse
import Verif.Model.ParseUtils
import Verif.Model.Pattern
import Verif.Model.Tree
import Verif.Model.Cluster
import Verif.Model.Matcher
import Verif.Model.Maker
import Verif.Model.Formatter
import Verif.Model.Cmdline
import Verif.Model.Api
import Verif.Model.Args
import Verif.Model.Bags
import Verif.Model.Calls
import Verif.Model.Config
import Verif.Model.Counters
import Verif.Model.Frames
import Verif.Model.Io
import Verif.Model.Lazy
import Verif.Model.Limit
import Verif.Model.Log
import Verif.Model.MatchCost
import Verif.Model.MatchLimit
import Verif.Model.Memory
import Verif.Model.MixedMatcher
import Verif.Model.NewPython
import Verif.Model.Objects
import Verif.Model.Ordering
import Verif.Model.Passes
import Verif.Model.Re
import Verif.Spec.Args
import Verif.Spec.Blocks
import Verif.Spec.Calls
import Verif.Spec.Chars
import Verif.Spec.Choices
import Verif.Spec.Cluster
import Verif.Spec.Clustering
import Verif.Spec.Command
import Verif.Spec.Config
import Verif.Spec.Counters
import Verif.Spec.Digits
import Verif.Spec.Gen
import Verif.Spec.Json
import Verif.Spec.Lang
import Verif.Spec.Lazy
import Verif.Spec.Lines
import Verif.Spec.Listed
import Verif.Spec.Mix
import Verif.Spec.Narrows
import Verif.Spec.Objects
import Verif.Spec.Order
import Verif.Spec.Passes
import Verif.Spec.PutIn
import Verif.Spec.Regex
import Verif.Spec.Rename
import Verif.Spec.Runs
import Verif.Spec.Sel
import Verif.Spec.Self
import Verif.Spec.Shadow
import Verif.Spec.Sizes
import Verif.Spec.Table
import Verif.Spec.Tight
import Verif.Spec.Times
import Verif.Spec.Tree
import Verif.Spec.Url
import Verif.Proofs.AbsUrl
import Verif.Proofs.AnyHash
import Verif.Proofs.AnyHash2
import Verif.Proofs.AnyHash3
import Verif.Proofs.AnyHash4
import Verif.Proofs.AnyHash5
import Verif.Proofs.ArgLine
import Verif.Proofs.Args
import Verif.Proofs.Bags
import Verif.Proofs.Calls
import Verif.Proofs.Calls2
import Verif.Proofs.Calls3
import Verif.Proofs.Calls4
import Verif.Proofs.Cand
import Verif.Proofs.CandText
import Verif.Proofs.Cells
import Verif.Proofs.CfgAny
import Verif.Proofs.CfgInt
import Verif.Proofs.CfgRead
import Verif.Proofs.CfgText
import Verif.Proofs.Chars
import Verif.Proofs.Choices
import Verif.Proofs.Closed1
import Verif.Proofs.Closed2
import Verif.Proofs.Closed3
import Verif.Proofs.Closed4
import Verif.Proofs.Closed5
import Verif.Proofs.Clu
import Verif.Proofs.Clu2
import Verif.Proofs.Comb
import Verif.Proofs.Command
import Verif.Proofs.Cover
import Verif.Proofs.Fit
import Verif.Proofs.FlatClose
import Verif.Proofs.FlatTop
import Verif.Proofs.Frames
import Verif.Proofs.GenMatch
import Verif.Proofs.GenText
import Verif.Proofs.Group
import Verif.Proofs.Grow
import Verif.Proofs.Grow2
import Verif.Proofs.InnerTree
import Verif.Proofs.Json
import Verif.Proofs.Lazy
import Verif.Proofs.Lazy2
import Verif.Proofs.LenStage
import Verif.Proofs.Length
import Verif.Proofs.Limit
import Verif.Proofs.Limit2
import Verif.Proofs.Lines
import Verif.Proofs.Load
import Verif.Proofs.Load2
import Verif.Proofs.MCount
import Verif.Proofs.MLoad
import Verif.Proofs.MNodup
import Verif.Proofs.MSorted
import Verif.Proofs.MTree
import Verif.Proofs.Make
import Verif.Proofs.Make2
import Verif.Proofs.MatchCost
import Verif.Proofs.MatchCost2
import Verif.Proofs.MatchLimit
import Verif.Proofs.MatchRe
import Verif.Proofs.MatchSel
import Verif.Proofs.Mix
import Verif.Proofs.MixedMatch
import Verif.Proofs.MixedMatch2
import Verif.Proofs.MultiStage
import Verif.Proofs.MultiStage2
import Verif.Proofs.Narrow
import Verif.Proofs.NestOK
import Verif.Proofs.Norm
import Verif.Proofs.Normalize
import Verif.Proofs.Objects
import Verif.Proofs.Objects2
import Verif.Proofs.OneMatch
import Verif.Proofs.OneSpace
import Verif.Proofs.OneWay
import Verif.Proofs.Order
import Verif.Proofs.OrderGen
import Verif.Proofs.Overtake
import Verif.Proofs.Passes
import Verif.Proofs.PatRe
import Verif.Proofs.PatString
import Verif.Proofs.PatStruct
import Verif.Proofs.Path
import Verif.Proofs.Piece
import Verif.Proofs.PieceStage
import Verif.Proofs.Pipe
import Verif.Proofs.Proc
import Verif.Proofs.Proc2
import Verif.Proofs.Proc3
import Verif.Proofs.PutIn
import Verif.Proofs.Query
import Verif.Proofs.RankDrop
import Verif.Proofs.RankPass
import Verif.Proofs.ReCat
import Verif.Proofs.ReRun
import Verif.Proofs.Readable
import Verif.Proofs.Regex
import Verif.Proofs.Rename
import Verif.Proofs.Rename2
import Verif.Proofs.Rename3
import Verif.Proofs.RowClose
import Verif.Proofs.RowText
import Verif.Proofs.Rows
import Verif.Proofs.Runs
import Verif.Proofs.SamePat
import Verif.Proofs.SelGen
import Verif.Proofs.SelfSel
import Verif.Proofs.SelfSel2
import Verif.Proofs.Sep
import Verif.Proofs.Sep2
import Verif.Proofs.Sep3
import Verif.Proofs.Shadow
import Verif.Proofs.Shadow2
import Verif.Proofs.Shadow3
import Verif.Proofs.Shape
import Verif.Proofs.ShortNest
import Verif.Proofs.SlashText
import Verif.Proofs.SpecPerm
import Verif.Proofs.Split
import Verif.Proofs.Stores
import Verif.Proofs.Stores2
import Verif.Proofs.Stores3
import Verif.Proofs.Strings
import Verif.Proofs.Structure
import Verif.Proofs.Table
import Verif.Proofs.Tight
import Verif.Proofs.Tight2
import Verif.Proofs.Top
import Verif.Proofs.Top2
import Verif.Proofs.Unit
import Verif.Proofs.UnitForm
import Verif.Proofs.Unpat
import Verif.Proofs.Url
import Verif.Proofs.ViewOK
import Verif.Proofs.ViewSplit
import Verif.Proofs.Vms
import Verif.Proofs.Witness
import Verif.Props.C01
import Verif.Props.C02
import Verif.Props.C03
import Verif.Props.C04
import Verif.Props.C05
import Verif.Props.C06
import Verif.Props.C07
import Verif.Props.C08
import Verif.Props.C09
import Verif.Props.C10
import Verif.Props.C11
import Verif.Props.C12
import Verif.Props.C12Backslash
import Verif.Props.C13
import Verif.Props.C14
import Verif.Props.C15
import Verif.Props.C16
import Verif.Props.C17
import Verif.Props.C18
import Verif.Props.C19
import Verif.Props.C20
import Verif.Props.C21
import Verif.Props.C22
import Verif.Props.C23
import Verif.Props.C24
import Verif.Props.C25
import Verif.Props.C27
import Verif.Props.C29
import Verif.Props.C30
import Verif.Props.C31
import Verif.Props.C32
import Verif.Props.C33
import Verif.Props.C34
import Verif.Props.C35
import Verif.Props.C36
import Verif.Props.C37
import Verif.Props.C38
import Verif.Props.C39
import Verif.Props.C40
import Verif.Props.C41
import Verif.Props.C42
import Verif.Props.C43
import Verif.Props.C44
import Verif.Props.C45
import Verif.Props.C46
import Verif.Props.C47
import Verif.Props.C48
import Verif.Props.C49
import Verif.Props.C50
import Verif.Props.C51
import Verif.Props.C52
import Verif.Props.C53
import Verif.Props.C54
import Verif.Props.C55
import Verif.Props.C56
import Verif.Props.C57
import Verif.Props.C58
import Verif.Props.C59
import Verif.Props.C60
import Verif.Props.C61
import Verif.Props.C62
import Verif.Props.C63
import Verif.Props.C64
import Verif.Props.C65
import Verif.Props.C66
import Verif.Props.C67
import Verif.Props.C68
import Verif.Props.C69
import Verif.Props.C70
import Verif.Props.C71
import Verif.Props.C72
import Verif.Props.C73
import Verif.Props.C74
import Verif.Props.C75
import Verif.Props.C76
import Verif.Props.C77
import Verif.Props.C78
import Verif.Props.C79
import Verif.Props.C80
import Verif.Props.C81
import Verif.Props.C82
import Verif.Props.C83
import Verif.Props.C84
import Verif.Props.C85
import Verif.Props.C86
import Verif.Props.C87
import Verif.Props.C88
import Verif.Props.C89
import Verif.Props.C90
import Verif.Props.C91
import Verif.Tests.Commands
import Verif.Tests.Config
import Verif.Tests.ParseUtils
import Verif.Tests.Pattern
