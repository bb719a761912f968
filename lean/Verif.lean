import Verif.RangeTree.Props
import Verif.NodeGroup.Props
import Verif.Outline.Props
import Verif.Tokenizer.Props
import Verif.BaseLexer.Props
import Verif.Recombine.Props
import Verif.Dod.Props
import Verif.Dod.StoreProps
import Verif.Diff.Props
import Verif.Strs.Props
import Verif.Base.Props
import Verif.Tokenizer.ListTree
import Verif.Lexer.Inside
import Verif.Parser.Props
import Verif.Imm.Props
import Verif.Radio.Props
import Verif.Select.Props
import Verif.MapGraph.Props
import Verif.Graph.EdgeProps
import Verif.Graph.HierPaths
import Verif.Graph.GraphProps
import Verif.Graph.SegProps
import Verif.Graph.PortProps
import Verif.Pipeline.Props
import Verif.Pipeline.ProseProps
import Verif.Layout.Props
import Verif.Layout.Returns
import Verif.Sem.Props
import Verif.Parser.HeadProps
import Verif.Pipeline.OutlineDoc
import Verif.Sem.OutlineProps
import Verif.Api.AttrProps
import Verif.Api.PropertyProps
import Verif.Api.HashTag
import Verif.Api.Stmt
import Verif.Api.Lead
import Verif.Api.Clean
import Verif.Api.Period
import Verif.Radio.Sem
import Verif.Api.Track
import Verif.Api.Lists
import Verif.Api.NewTime
import Verif.Proto.Props
import Verif.Serde.Props
import Verif.AstDiff.EagerProps
import Verif.AstDiff.TreeModel
import Verif.AstDiff.Flat
import Verif.AstDiff.TreeTop
import Verif.AstDiff.TreeZs
import Verif.AstDiff.TreePost
import Verif.AstDiff.TreeMap
import Verif.AstDiff.TreeBfs
import Verif.AstDiff.TreeOrder
import Verif.AstDiff.TreeChanges
import Verif.AstDiff.TreeSpec
import Verif.AstDiff.TreeProps
import Verif.AstDiff.TreeSame
import Verif.AstDiff.ImmModel
import Verif.AstDiff.SameProps
import Verif.Dir.Model
import Verif.Dir.Spec
import Verif.Dir.Lemmas
import Verif.Dir.Count
import Verif.Dir.Fuel
import Verif.Dir.Halt
import Verif.Dir.Props
import Verif.Dir.RefProps
import Verif.Eval.Model
import Verif.Eval.Slice
import Verif.Eval.Spec
import Verif.Eval.Lemmas
import Verif.Eval.Loop
import Verif.Eval.Props
import Verif.Eval.Input
import Verif.Demote.Props
import Verif.Drawer.Props
import Verif.Track.Props
import Verif.Stamp.Model
import Verif.Stamp.Spec
import Verif.Stamp.Lex
import Verif.Stamp.LexDoc
import Verif.Stamp.Does
import Verif.Stamp.Parse
import Verif.Stamp.ParseDoc
import Verif.Stamp.Dates
import Verif.Stamp.Convert
import Verif.Stamp.Props
import Verif.Log.Props
import Verif.Link.Props
import Verif.Code.Model
import Verif.Code.Spec
import Verif.Code.Lex
import Verif.Code.LexDoc
import Verif.Code.Tokens
import Verif.Code.Parse
import Verif.Code.ParseDoc
import Verif.Code.Convert
import Verif.Code.Again
import Verif.Code.Cut
import Verif.Code.Props
import Verif.Raw.Props
import Verif.Grid.Model
import Verif.Grid.Spec
import Verif.Grid.Lex
import Verif.Grid.Parse
import Verif.Grid.Convert
import Verif.Grid.Again
import Verif.Grid.Props
import Verif.Lists.Model
import Verif.Lists.Spec
import Verif.Lists.Lex
import Verif.Lists.Parse
import Verif.Lists.Convert
import Verif.Lists.Again
import Verif.Lists.Props
import Verif.Fuzzy.Model
import Verif.Fuzzy.Spec
import Verif.Fuzzy.Lemmas
import Verif.Fuzzy.Props
import Verif.Sets.Model
import Verif.Term.Model
import Verif.Sets.Spec
import Verif.Term.Spec
import Verif.Sets.Lemmas
import Verif.Term.Lemmas
import Verif.Sets.Props
import Verif.Term.Props
import Verif.Graph.SerialModel
import Verif.Graph.SerialSpec
import Verif.Graph.SerialLemmas
import Verif.Graph.SerialHier
import Verif.Graph.SerialProps
import Verif.Comments.Model
import Verif.Comments.Spec
import Verif.Comments.Lemmas
import Verif.Comments.Props
import Verif.Keywords.Model
import Verif.Keywords.Spec
import Verif.Keywords.Lex
import Verif.Keywords.Tokens
import Verif.Keywords.Parse
import Verif.Keywords.Meaning
import Verif.Keywords.Again
import Verif.Keywords.Props
import Verif.JsonText.Model
import Verif.JsonText.Spec
import Verif.JsonText.Read
import Verif.JsonText.Props
import Verif.Structural.Model
import Verif.Structural.Spec
import Verif.Structural.Props
import Verif.Xml.Model
import Verif.Xml.Spec
import Verif.Xml.Read
import Verif.Xml.More
import Verif.Xml.Props
import Verif.Enumerate.Model
import Verif.Enumerate.Props
import Verif.Bits.Model
import Verif.Bits.Props
import Verif.Window.Model
import Verif.Window.Props
import Verif.Columns.Model
import Verif.Columns.Props
import Verif.Trail.Model
import Verif.Trail.Props
import Verif.Bimap.Model
import Verif.Bimap.Props
import Verif.Report.Model
import Verif.Report.Lemmas
import Verif.Report.Props
import Verif.Mkdir.Model
import Verif.Mkdir.Props
import Verif.Maps.Model
import Verif.Maps.Props
import Verif.Cache.Model
import Verif.Cache.Props
import Verif.Geometry.Model
import Verif.Geometry.Props
import Verif.Constraint.Model
import Verif.Constraint.Props
import Verif.Picture.Model
import Verif.Picture.Props
import Verif.Fields.Model
import Verif.Fields.Props
import Verif.Vecs.Model
import Verif.Vecs.Props
import Verif.Agenda.Model
import Verif.Agenda.Props
import Verif.Editor.Model
import Verif.Editor.Props
import Verif.TraceView.Model
import Verif.TraceView.Props
import Verif.Tracer.Model
import Verif.Tracer.Props
import Verif.Explorer.Model
import Verif.Explorer.Props
import Verif.Logger.Model
import Verif.Logger.Props
import Verif.Attrs.Model
import Verif.Attrs.Props
import Verif.CallGraph.Model
import Verif.CallGraph.Props
import Verif.RenderTrace.Model
import Verif.RenderTrace.Props
