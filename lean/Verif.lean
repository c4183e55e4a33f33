import Verif.Model.Bytes
import Verif.Model.Scanner
import Verif.Model.Document
import Verif.Model.Parser
import Verif.Spec.Ok
import Verif.Spec.Tokens
import Verif.Spec.Tree
import Verif.Proof.Prim
import Verif.Proof.Step
import Verif.Proof.ScanStep
import Verif.Proof.StepFacts
import Verif.Proof.Run
import Verif.Proof.Text
import Verif.Proof.Tile
import Verif.Proof.Grammar
import Verif.Proof.Restart
import Verif.Proof.Utf8
import Verif.Proof.TreeLemmas
import Verif.Proof.ParseInv
import Verif.Proof.ParseStep
import Verif.Proof.ParseRun
import Verif.Proof.ParseTotal
import Verif.Proof.ParseInfo
import Verif.Proof.ParseEnd
import Verif.Spec.Print
import Verif.Proof.Print
import Verif.Proof.PrintTotal
import Verif.Props.Scanner
import Verif.Props.Parser
import Verif.Tests
import Verif.Spec.Query
import Verif.Proof.Query
import Verif.Props.Document

import Verif.Model.TextDocument
import Verif.Model.TagServices
import Verif.Spec.Position
import Verif.Proof.TextDocument
import Verif.Proof.TagServices
import Verif.Proof.Highlight
import Verif.Props.TextDocument
import Verif.Props.TagServices
import Verif.Model.Symbols
import Verif.Spec.Symbols
import Verif.Spec.Rename
import Verif.Proof.Symbols
import Verif.Proof.Rename
import Verif.Props.Symbols
import Verif.Props.Rename
import Verif.Model.Folding
import Verif.Spec.Folding
import Verif.Proof.Folding
import Verif.Proof.FoldElements
import Verif.Proof.FoldLimit
import Verif.Proof.FoldPanics
import Verif.Props.Folding
import Verif.Model.SelectionRange
import Verif.Spec.SelectionRange
import Verif.Proof.StartTag
import Verif.Proof.Local
import Verif.Proof.AttrSeq
import Verif.Proof.AttrSel
import Verif.Proof.Boundary
import Verif.Proof.Selection
import Verif.Proof.SelectionPanics
import Verif.Proof.SelectionExact
import Verif.Proof.SelectionAll
import Verif.Props.SelectionRange
import Verif.Model.LanguageFacts
import Verif.Spec.LanguageFacts
import Verif.Proof.LanguageFacts
import Verif.Props.LanguageFacts
import Verif.Model.Hover
import Verif.Spec.Hover
import Verif.Proof.Hover
import Verif.Proof.HoverAnswers
import Verif.Props.Hover
import Verif.Model.Uri
import Verif.Spec.Uri
import Verif.Proof.Uri
import Verif.Props.Uri
import Verif.Model.Links
import Verif.Spec.Links
import Verif.Proof.Links
import Verif.Proof.LinkTotal
import Verif.Proof.LinkPanics
import Verif.Props.Links
import Verif.Props.LinkScheme
import Verif.Spec.Items
import Verif.Proof.Items
import Verif.Props.Items
import Verif.Proof.LinkScheme
import Verif.Spec.LinkScheme
import Verif.Model.Formatter
import Verif.Spec.Format
import Verif.Proof.FormatText
import Verif.Proof.Format
import Verif.Proof.FormatTotal
import Verif.Proof.FormatInk
import Verif.Proof.FormatRange
import Verif.Props.Format
import Verif.Model.Completion
import Verif.Proof.Pseudo
import Verif.Proof.Segments
import Verif.Spec.Completion
import Verif.Proof.Completion
import Verif.Proof.CompletionTags
import Verif.Proof.CompletionClose
import Verif.Props.Completion
import Verif.Proof.Proposals
import Verif.Proof.AttrProposals
import Verif.Proof.OnlyEnabled
import Verif.Proof.EditRanges
import Verif.Props.Proposals
import Verif.Proof.TagProposals
import Verif.Props.TagProposals
import Verif.Proof.ValueProposals
import Verif.Props.ValueProposals
import Verif.Proof.CompletionTotal
import Verif.Proof.CompletionPanics
import Verif.Props.Total
import Verif.Spec.Layout
import Verif.Proof.Layout
import Verif.Props.Layout
import Verif.Model.Service
import Verif.Spec.Service
import Verif.Props.Service
import Verif.Spec.Reformat
import Verif.Proof.Plain
import Verif.Proof.Respace
import Verif.Proof.Relines
import Verif.Proof.Reprint
import Verif.Proof.Reformat
import Verif.Proof.Settle
import Verif.Proof.Reshape
import Verif.Proof.EditPanics
import Verif.Proof.Encoded
import Verif.Proof.RenameEncoded
import Verif.Props.Reformat
import Verif.Spec.Locality
import Verif.Proof.Shift
import Verif.Proof.Ahead
import Verif.Proof.Concat
import Verif.Proof.ParseConcat
import Verif.Props.Locality
import Verif.Model.BuiltinTags
import Verif.Model.Entities
import Verif.Spec.Builtin
import Verif.Proof.Builtin
import Verif.Props.Builtin
import Verif.Spec.Accept
import Verif.Proof.Accept
import Verif.Proof.AcceptPanics
import Verif.Props.Accept
import Verif.Spec.Panics
import Verif.Proof.Panics
import Verif.Props.Panics
import Verif.Spec.RawText
import Verif.Proof.RawText
import Verif.Proof.RawOwner
import Verif.Props.RawText
import Verif.Props.RangeFormat
import Verif.Spec.Insert
import Verif.Proof.Insert
import Verif.Props.Insert
import Verif.Proof.RenameUndo
import Verif.Props.Agree
import Verif.Spec.Retag
import Verif.Proof.Retag
import Verif.Props.Retag
import Verif.Spec.AcceptValue
import Verif.Proof.AcceptValue
import Verif.Props.AcceptValue
import Verif.Spec.FoldTree
import Verif.Proof.FoldTree
import Verif.Props.FoldTree
import Verif.Spec.LinkTree
import Verif.Proof.LinkTree
import Verif.Props.LinkTree
import Verif.Spec.Cut
import Verif.Proof.Cut
import Verif.Props.Cut
import Verif.Spec.AcceptSlash
import Verif.Proof.AcceptSlash
import Verif.Props.AcceptSlash
import Verif.Spec.AcceptTag
import Verif.Proof.AcceptTag
import Verif.Proof.OtherName
import Verif.Props.AcceptTag
import Verif.Spec.AcceptName
import Verif.Proof.AcceptName
import Verif.Props.AcceptName
import Verif.Proof.AcceptQuotes
import Verif.Props.AcceptQuotes
import Verif.Spec.Renamed
import Verif.Proof.Renamed
import Verif.Proof.RenamedText
import Verif.Proof.RenamedEdits
import Verif.Proof.RenamedPanics
import Verif.Props.Renamed
import Verif.Spec.LetterCase
import Verif.Proof.LetterCase
import Verif.Proof.LetterCaseScan
import Verif.Proof.LetterCaseParse
import Verif.Props.LetterCase
import Verif.Proof.HoverTree
import Verif.Proof.HoverTotal
import Verif.Props.HoverTree
import Verif.Spec.SameDocs
import Verif.Proof.SameDocs
import Verif.Props.SameDocs
import Verif.Spec.LinkIds
import Verif.Props.LinkIds
import Verif.Spec.CaseServices
import Verif.Proof.CaseServices
import Verif.Props.CaseServices
import Verif.Spec.LineEndings
import Verif.Proof.LineEndings
import Verif.Proof.LineEndingsScan
import Verif.Proof.LineEndingsParse
import Verif.Proof.LineEndingsServices
import Verif.Proof.LineEndingsSel
import Verif.Props.LineEndings
import Verif.Proof.LineEndingsFormat
import Verif.Props.LineEndingsFormat
import Verif.Proof.LineEndingsLinks
import Verif.Props.LineEndingsLinks
import Verif.Proof.LineEndingsHover
import Verif.Proof.LineEndingsTyping
import Verif.Props.LineEndingsHover
import Verif.Props.LineEndingsTyping
import Verif.Proof.Terminates
import Verif.Props.Terminates
import Verif.Spec.Behind
import Verif.Proof.Behind
import Verif.Props.Behind
import Verif.Proof.Kept
import Verif.Props.Kept
import Verif.Spec.Moved
import Verif.Proof.Moved
import Verif.Props.Moved
import Verif.Proof.FoldMoved
import Verif.Props.FoldMoved
import Verif.Spec.SelMoved
import Verif.Proof.SelMoved
import Verif.Props.SelMoved
import Verif.Proof.TypingMoved
import Verif.Props.TypingMoved
import Verif.Spec.CompMoved
import Verif.Proof.CompMoved
import Verif.Props.CompMoved
import Verif.Spec.LinkMoved
import Verif.Proof.LinkMoved
import Verif.Props.LinkMoved
