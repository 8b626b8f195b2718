import Verif.Props.Edit
import Verif.Props.Document
import Verif.Props.Block
import Verif.Props.Lexer
import Verif.Props.Tree
import Verif.Props.Changes
import Verif.Props.Process
import Verif.Props.Observable
import Verif.Props.Locker
import Verif.Props.Util
import Verif.Props.Formatter
import Verif.Props.RuleItem
import Verif.Props.Regex
import Verif.Props.Longest
import Verif.Props.Translate
import Verif.Props.Transform
import Verif.Props.Query
import Verif.Props.Css
import Verif.Props.Color
import Verif.Props.Theme
import Verif.Props.StandardAction
import Verif.Props.Registry
import Verif.Props.Indent
import Verif.Props.Validate
import Verif.Lemmas.RebuildEvents
import Verif.Lemmas.RebuildLex
import Verif.Lemmas.RebuildCut
import Verif.Lemmas.RebuildFind
import Verif.Lemmas.RebuildPrep
import Verif.Lemmas.RebuildReplace
import Verif.Lemmas.RebuildTail
import Verif.Lemmas.RebuildAll
import Verif.Props.Rebuild
import Verif.Lemmas.EventsOf
import Verif.Lemmas.EventsExact
import Verif.Props.EventsOf
import Verif.Model.Re
import Verif.Spec.Re
import Verif.Lemmas.Re
import Verif.Lemmas.ReAhead
import Verif.Lemmas.ReWay
import Verif.Lemmas.ReShift
import Verif.Lemmas.RebuildJoin
import Verif.Props.Re
import Verif.Model.Json
import Verif.Spec.Json
import Verif.Lemmas.Goes
import Verif.Lemmas.ReBest
import Verif.Lemmas.JsonTok
import Verif.Lemmas.JsonStr
import Verif.Lemmas.JsonVal
import Verif.Lemmas.JsonAll
import Verif.Lemmas.JsonEnd
import Verif.Props.Json
import Verif.Model.ReGroup
import Verif.Model.Csv
import Verif.Spec.Csv
import Verif.Lemmas.GoesGroup
import Verif.Lemmas.Csv
import Verif.Lemmas.CsvEnd
import Verif.Props.Csv
import Verif.Model.DocIO
import Verif.Spec.DocIO
import Verif.Lemmas.DocIO
import Verif.Props.DocIO
import Verif.Model.Replace
import Verif.Spec.Replace
import Verif.Lemmas.Replace
import Verif.Props.Replace
import Verif.Model.Action
import Verif.Spec.Action
import Verif.Lemmas.Action
import Verif.Lemmas.ActionMore
import Verif.Props.Action
import Verif.Model.Interrupt
import Verif.Spec.Interrupt
import Verif.Lemmas.Interrupt
import Verif.Lemmas.InterruptMore
import Verif.Props.Interrupt
import Verif.Model.Numbers
import Verif.Spec.Numbers
import Verif.Lemmas.GoesFresh
import Verif.Lemmas.NumbersFeed
import Verif.Lemmas.NumbersGoes
import Verif.Lemmas.NumbersWords
import Verif.Lemmas.NumbersEnglish
import Verif.Lemmas.NumbersAny
import Verif.Props.Numbers
import Verif.Spec.NumbersMore
import Verif.Lemmas.NumbersCompound
import Verif.Lemmas.NumbersCompoundText
import Verif.Props.NumbersMore
import Verif.Model.Ini
import Verif.Spec.Ini
import Verif.Lemmas.IniLex
import Verif.Lemmas.IniBlock
import Verif.Lemmas.IniEnd
import Verif.Lemmas.IniVal
import Verif.Lemmas.IniText
import Verif.Lemmas.IniLoop
import Verif.Props.Ini
import Verif.Model.Caching
import Verif.Spec.Caching
import Verif.Lemmas.Caching
import Verif.Lemmas.CachingMethod
import Verif.Props.Caching
import Verif.Model.LexiconStore
import Verif.Spec.LexiconStore
import Verif.Lemmas.LexiconStore
import Verif.Props.LexiconStore
import Verif.Model.Dispatch
import Verif.Spec.Dispatch
import Verif.Lemmas.Dispatch
import Verif.Props.Dispatch
import Verif.Model.FileCache
import Verif.Spec.FileCache
import Verif.Props.FileCache
import Verif.Spec.Circular
import Verif.Lemmas.Circular
import Verif.Props.Circular
import Verif.Model.StyleSheet
import Verif.Spec.StyleSheet
import Verif.Lemmas.StyleSheet
import Verif.Props.StyleSheet
import Verif.Model.Bare
import Verif.Model.CssLang
import Verif.Lemmas.PatFirst
import Verif.Lemmas.GoesItems
import Verif.Spec.CssLang
import Verif.Props.CssLangBad
import Verif.Lemmas.CssStep
import Verif.Lemmas.CssBlank
import Verif.Lemmas.CssPat
import Verif.Lemmas.CssArgs
import Verif.Lemmas.CssBlock
import Verif.Lemmas.CssSel
import Verif.Lemmas.CssSels
import Verif.Lemmas.CssSelGo
import Verif.Lemmas.CssSheet
import Verif.Lemmas.CssEnd
import Verif.Props.CssLang
import Verif.Props.NodesDelete
import Verif.Props.Nodes
import Verif.Props.NodesQuery
import Verif.Model.ToString
import Verif.Spec.ToString
import Verif.Lemmas.ToString
import Verif.Lemmas.ToStringEscape
import Verif.Props.ToString
import Verif.Model.RuleHelpers
import Verif.Spec.RuleHelpers
import Verif.Lemmas.RuleHelpers
import Verif.Props.RuleHelpers
import Verif.Model.Quote
import Verif.Spec.Quote
import Verif.Lemmas.Quote
import Verif.Props.Quote
import Verif.Model.TextFormat
import Verif.Spec.TextFormat
import Verif.Lemmas.TextFormat
import Verif.Props.TextFormat
import Verif.Model.FullHtml
import Verif.Spec.FullHtml
import Verif.Lemmas.FullHtml
import Verif.Props.FullHtml
import Verif.Model.InlineCss
import Verif.Spec.InlineCss
import Verif.Lemmas.InlineCss
import Verif.Lemmas.TextFormatOrder
import Verif.Props.InlineCss
import Verif.Model.Themes
import Verif.Spec.Themes
import Verif.Lemmas.Themes
import Verif.Props.Themes
import Verif.Model.FormatContext
import Verif.Spec.FormatContext
import Verif.Lemmas.FormatContext
import Verif.Props.FormatContext
import Verif.Model.Indenter
import Verif.Spec.Indenter
import Verif.Lemmas.Indenter
import Verif.Props.Indenter
import Verif.Model.TextRange
import Verif.Props.TextRange
import Verif.Model.LxmlElement
import Verif.Lemmas.LxmlElement
import Verif.Props.LxmlElement
import Verif.Model.ValidateLexicon
import Verif.Spec.ValidateLexicon
import Verif.Lemmas.ValidateLexicon
import Verif.Props.ValidateLexicon
import Verif.Model.Introspect
import Verif.Spec.Introspect
import Verif.Lemmas.Introspect
import Verif.Props.Introspect
import Verif.Model.SaveLoad
import Verif.Spec.SaveLoad
import Verif.Lemmas.SaveLoad
import Verif.Props.SaveLoad
import Verif.Model.TokenAt
import Verif.Spec.TokenAt
import Verif.Lemmas.TokenAt
import Verif.Props.TokenAt
import Verif.Model.WorkerTransform
import Verif.Lemmas.WorkerTransform
import Verif.Props.WorkerTransform
import Verif.Model.SwitchTransformer
import Verif.Spec.SwitchTransformer
import Verif.Lemmas.SwitchTransformer
import Verif.Props.SwitchTransformer
import Verif.Model.Xml
import Verif.Spec.Xml
import Verif.Lemmas.XmlStep
import Verif.Lemmas.XmlPat
import Verif.Lemmas.XmlComment
import Verif.Lemmas.XmlAttr
import Verif.Lemmas.XmlItem
import Verif.Props.Xml
import Verif.Model.XmlEncoding
import Verif.Spec.XmlEncoding
import Verif.Lemmas.TreePrefix
import Verif.Lemmas.XmlEncoding
import Verif.Props.XmlEncoding
import Verif.Model.FindEncoding
import Verif.Spec.FindEncoding
import Verif.Lemmas.FindEncoding
import Verif.Props.FindEncoding
import Verif.Model.DocInit
import Verif.Props.DocInit
import Verif.Model.Html
import Verif.Spec.Html
import Verif.Lemmas.Html
import Verif.Props.Html
import Verif.Model.Toml
import Verif.Spec.Toml
import Verif.Lemmas.TomlStep
import Verif.Lemmas.TomlKey
import Verif.Lemmas.TomlNum
import Verif.Lemmas.TomlVal
import Verif.Lemmas.TomlComment
import Verif.Lemmas.TomlMulti
import Verif.Lemmas.TomlTree
import Verif.Lemmas.TomlDoc
import Verif.Props.Toml
import Verif.Spec.FindContext
import Verif.Lemmas.FindContext
import Verif.Props.FindContext
import Verif.Model.Switch
import Verif.Spec.Switch
import Verif.Lemmas.Switch
import Verif.Props.Switch
import Verif.Model.HtmlEncoding
import Verif.Spec.HtmlEncoding
import Verif.Lemmas.HtmlEncoding
import Verif.Props.HtmlEncoding
import Verif.Model.RangeBounds
import Verif.Lemmas.RangeBounds
import Verif.Props.RangeBounds
import Verif.Model.Sister
import Verif.Spec.Sister
import Verif.Lemmas.Sister
import Verif.Props.Sister
import Verif.Model.LilyIndent
import Verif.Spec.LilyIndent
import Verif.Lemmas.LilyIndent
import Verif.Props.LilyIndent
import Verif.Model.Sections
import Verif.Lemmas.Sections
import Verif.Props.Sections
import Verif.Model.FormatDocument
import Verif.Props.FormatDocument
import Verif.Model.ThemeElement
import Verif.Spec.ThemeElement
import Verif.Lemmas.ThemeElement
import Verif.Props.ThemeElement
import Verif.Model.SheetSum
import Verif.Props.SheetSum
import Verif.Model.Dump
import Verif.Spec.Dump
import Verif.Lemmas.Dump
import Verif.Props.Dump
import Verif.Model.SameEvents
import Verif.Props.SameEvents
import Verif.Props.DumpShape
import Verif.Model.QueryPick
import Verif.Props.QueryPick
