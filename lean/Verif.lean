import Verif.Basic
import Verif.Model.AsciiSet
import Verif.Model.Builder
import Verif.Model.Escape
import Verif.Model.Expand
import Verif.Model.GGlob
import Verif.Model.Glob
import Verif.Model.GlobTree
import Verif.Model.GoMap
import Verif.Model.Items
import Verif.Model.Path
import Verif.Model.Random
import Verif.Model.RunesRanges
import Verif.Model.Steps
import Verif.Model.Store
import Verif.Model.StoreMem
import Verif.Model.TagPath
import Verif.Model.TagTerm
import Verif.Model.TagTree
import Verif.Model.Wildcard
import Verif.Model.WordList
import Verif.Proofs.AsciiSet
import Verif.Proofs.Attained
import Verif.Proofs.AttainedSem
import Verif.Proofs.Bare
import Verif.Proofs.Builder
import Verif.Proofs.BytesParse
import Verif.Proofs.Canon
import Verif.Proofs.ClassScan
import Verif.Proofs.ClassSearch
import Verif.Proofs.ClassText
import Verif.Proofs.Escape
import Verif.Proofs.Expand
import Verif.Proofs.ExpandCap
import Verif.Proofs.ExpandChoice
import Verif.Proofs.ExpandFull
import Verif.Proofs.ExpandLang
import Verif.Proofs.ExpandOuts
import Verif.Proofs.ExpandPanic
import Verif.Proofs.ExpandParse
import Verif.Proofs.ExpandPieces
import Verif.Proofs.ExpandText
import Verif.Proofs.ExpandToks
import Verif.Proofs.ExprIter
import Verif.Proofs.Faults
import Verif.Proofs.FlatItems
import Verif.Proofs.GGlob
import Verif.Proofs.GGlobParse
import Verif.Proofs.GTree
import Verif.Proofs.GTreeExact
import Verif.Proofs.GTreeHist
import Verif.Proofs.GTreeOnly
import Verif.Proofs.GlobDec
import Verif.Proofs.GlobExact
import Verif.Proofs.GlobTreeHist
import Verif.Proofs.GlobTreeRoot
import Verif.Proofs.Grown
import Verif.Proofs.ItemSem
import Verif.Proofs.ItemsRoom
import Verif.Proofs.Lists
import Verif.Proofs.LitLen
import Verif.Proofs.LongTexts
import Verif.Proofs.MatchComplete
import Verif.Proofs.MatchMono
import Verif.Proofs.MatchSafe
import Verif.Proofs.MatchSem
import Verif.Proofs.MatchTerm
import Verif.Proofs.Merge
import Verif.Proofs.NoPanic
import Verif.Proofs.NodeClass
import Verif.Proofs.NodeDots
import Verif.Proofs.NodePieces
import Verif.Proofs.NodeText
import Verif.Proofs.NodeTwice
import Verif.Proofs.Norm
import Verif.Proofs.ParseAlt
import Verif.Proofs.ParseChunk
import Verif.Proofs.ParseClass
import Verif.Proofs.ParseGlob
import Verif.Proofs.ParseLoc
import Verif.Proofs.ParseRaw
import Verif.Proofs.ParseToks
import Verif.Proofs.ParseTotal
import Verif.Proofs.Path
import Verif.Proofs.QueryFaults
import Verif.Proofs.QueryText
import Verif.Proofs.Random
import Verif.Proofs.RandomAll
import Verif.Proofs.RenderInj
import Verif.Proofs.RuneScan
import Verif.Proofs.RunesRanges
import Verif.Proofs.Sized
import Verif.Proofs.StarEnd
import Verif.Proofs.StarRuns
import Verif.Proofs.Steps
import Verif.Proofs.StepsParse
import Verif.Proofs.TagExact
import Verif.Proofs.TagFind
import Verif.Proofs.TagGroups
import Verif.Proofs.TagGrown
import Verif.Proofs.TagHist
import Verif.Proofs.TagLive
import Verif.Proofs.TagOrder
import Verif.Proofs.TagTerm
import Verif.Proofs.TagTree
import Verif.Proofs.TextBraces
import Verif.Proofs.TextChain
import Verif.Proofs.TextParse
import Verif.Proofs.TreeInsert
import Verif.Proofs.TreeMono
import Verif.Proofs.TreeOnce
import Verif.Proofs.TreeOnceChars
import Verif.Proofs.TreeOnceHist
import Verif.Proofs.TreeOnceWords
import Verif.Proofs.TreeOnly
import Verif.Proofs.TreeOrder
import Verif.Proofs.TreeOrderMatch
import Verif.Proofs.TreePaths
import Verif.Proofs.TreePerm
import Verif.Proofs.TreeSafe
import Verif.Proofs.TreeSem
import Verif.Proofs.TreesOnce
import Verif.Proofs.Utf8
import Verif.Proofs.Utf8Inv
import Verif.Proofs.Wildcard
import Verif.Props.C01_C03_Match
import Verif.Props.C01_Text
import Verif.Props.C03_NoPanic
import Verif.Props.C04_Terminates
import Verif.Props.C05_ParseTotal
import Verif.Props.C06_Lengths
import Verif.Props.C07_Node
import Verif.Props.C07_Pieces
import Verif.Props.C08_C09_GlobTree
import Verif.Props.C08_Text
import Verif.Props.C10_GlobTreeBooks
import Verif.Props.C11_C12_GGlob
import Verif.Props.C11_Text
import Verif.Props.C13_C15_GTree
import Verif.Props.C13_Exact
import Verif.Props.C13_Text
import Verif.Props.C13_Written
import Verif.Props.C16_Path
import Verif.Props.C17_C19_Escape
import Verif.Props.C20_C21_TagPath
import Verif.Props.C22_C24_Query
import Verif.Props.C23_Exact
import Verif.Props.C24_C29_Text
import Verif.Props.C25_Exact
import Verif.Props.C25_TagTree
import Verif.Props.C26_C29_TagTree
import Verif.Props.C30_C34_Expand
import Verif.Props.C30_C34_Text
import Verif.Props.C35_AsciiSet
import Verif.Props.C36_C40_Classes
import Verif.Props.C38_C39_Bytes
import Verif.Props.C41_Stores
import Verif.Props.C42_C43_Lists
import Verif.Props.C43_Exact
import Verif.Props.C44_C47_Expand
import Verif.Props.C45_Random
import Verif.Props.C46_Exact
import Verif.Props.C46_Stable
import Verif.Props.C49_C50_Words
import Verif.Props.C51_Accepted
import Verif.Props.C52_Queries
import Verif.Props.C53_Dotted
import Verif.Props.C54_C55_Order
import Verif.Props.C56_Only
import Verif.Props.C57_Order
import Verif.Props.C58_Groups
import Verif.Props.C59_TagOrder
import Verif.Props.C60_EscapeExact
import Verif.Props.C61_SetText
import Verif.Props.C62_Series
import Verif.Props.C63_Grows
import Verif.Props.C64_Single
import Verif.Props.C65_Branches
import Verif.Props.C66_Builder
import Verif.Props.C67_Attained
import Verif.Props.C68_ExprIter
import Verif.Props.C69_Errors
import Verif.Props.C70_PathPairs
import Verif.Props.C71_Steps
import Verif.Props.C72_Room
import Verif.Props.C73_Once
import Verif.Props.C74_Once
import Verif.Props.C75_Known
import Verif.Props.C76_StoreMem
import Verif.Props.C77_KnownDotted
import Verif.Props.C78_KnownQuery
import Verif.Spec.Branch
import Verif.Spec.Class
import Verif.Spec.ClassText
import Verif.Spec.Dotted
import Verif.Spec.Expand
import Verif.Spec.ExpandText
import Verif.Spec.Faults
import Verif.Spec.GlobBytes
import Verif.Spec.GlobLang
import Verif.Spec.GlobText
import Verif.Spec.Query
import Verif.Spec.QueryFaults
import Verif.Spec.Sampled
import Verif.Spec.Skeleton
import Verif.Spec.StarRuns
import Verif.Spec.Stars
import Verif.Spec.Tidy
import Verif.Tests.ExpandTable
import Verif.Tests.GlobTable
import Verif.Tests.GlobTreeTable
import Verif.Utf8
