import Verif.Model.Go
import Verif.Model.Val
import Verif.Model.Graph
import Verif.Model.Event
import Verif.Model.Binary
import Verif.Model.Log
import Verif.Model.Prog
import Verif.Model.Lexer
import Verif.Model.Block
import Verif.Model.Flow
import Verif.Model.Buffer
import Verif.Model.Text
import Verif.Model.Json
import Verif.Model.Scalar
import Verif.Model.Ast
import Verif.Model.Eval
import Verif.Model.Template
import Verif.Props.Event
import Verif.Props.Binary
import Verif.Props.Log
import Verif.Props.Graph
import Verif.Props.Lexer
import Verif.Props.Text
import Verif.Props.Path
import Verif.Props.Get
import Verif.Props.Expr
import Verif.Props.Call
import Verif.Props.Template
import Verif.Model.Sort
import Verif.Props.Sort
import Verif.Props.Scalar
import Verif.Lemmas.EvalMono
import Verif.Lemmas.Short
import Verif.Lemmas.Rune
import Verif.Lemmas.Path
import Verif.Props.Json
import Verif.Props.Schema
import Verif.Props.Rf
import Verif.Props.Xml
import Verif.Props.Index
import Verif.Props.AssignIndex
import Verif.Props.Method
import Verif.Props.ScalarValue
import Verif.Props.Clone
import Verif.Props.Refine
import Verif.Props.Rf1
import Verif.Props.Html
import Verif.Props.Long
import Verif.Props.Cmd
import Verif.Props.Conc
import Verif.Props.Read
import Verif.Props.HeapEval
import Verif.Props.HeapTemplate
import Verif.Props.TameTemplate
import Verif.Props.ConcTemplate
import Verif.Props.RfResult
import Verif.Props.RfAttempts
import Verif.Props.BinStream
import Verif.Props.HeapGet
import Verif.Props.Parsed
import Verif.Props.Constant
import Verif.Props.GetEval
import Verif.Props.Confined
import Verif.Props.Cut
import Verif.Props.Break
import Verif.Props.Levels
import Verif.Props.Decode
import Verif.Props.At
import Verif.Props.Truncate
import Verif.Props.LexCalls
import Verif.Props.LexWords
import Verif.Props.LexRunes
import Verif.Props.LexErr
import Verif.Props.Merge
import Verif.Props.Equal
import Verif.Props.Delete
import Verif.Props.Defaults
import Verif.Props.Indent
