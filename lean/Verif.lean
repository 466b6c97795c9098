import Verif.Base
import Verif.Env
import Verif.EnvEx
import Verif.Val
import Verif.Assoc
import Verif.MsgPack.Model
import Verif.MsgPack.Spec
import Verif.Props.MsgPack
import Verif.Bson.Model
import Verif.Bson.Spec
import Verif.Props.Bson
import Verif.Json.Model
import Verif.Json.Spec
import Verif.Props.Json
import Verif.Heap.Model
import Verif.Heap.Alloc
import Verif.Heap.Rep
import Verif.Heap.Tree
import Verif.Heap.Ops
import Verif.Heap.Keys
import Verif.Heap.Example
import Verif.Props.Api
import Verif.Heap.Force
import Verif.Props.Path
import Verif.Heap.Step
import Verif.Heap.Copy
import Verif.Heap.CopyStep
import Verif.Heap.Calls
import Verif.Props.Const
import Verif.Heap.World
import Verif.Heap.Mut
import Verif.Heap.Clone
import Verif.Heap.Prog
import Verif.Props.Cache
import Verif.Props.Clone
import Verif.Heap.Equal
import Verif.Heap.Merge
import Verif.Heap.MergeDeep
import Verif.Heap.MergeProg
import Verif.Props.Equal
import Verif.Props.Merge
import Verif.Props.MergeDeep
import Verif.Yaml.Model
import Verif.Yaml.Young
import Verif.Yaml.Ends
import Verif.Yaml.Safe
import Verif.Yaml.Tree
import Verif.Yaml.Loop
import Verif.Yaml.Pool
import Verif.Yaml.Flat
import Verif.Yaml.Nested
import Verif.Yaml.Block
import Verif.Yaml.Alias
import Verif.Props.Yaml
import Verif.Props.YamlMap
import Verif.Props.YamlBlock
import Verif.Props.YamlAlias
import Verif.IO.Model
import Verif.Props.IO
import Verif.Conc.Model
import Verif.Conc.Proof
import Verif.Props.Conc
import Verif.Reflect.Model
import Verif.Reflect.Spec
import Verif.Reflect.Proof
import Verif.Props.Reflect
import Verif.Reflect.Std
import Verif.Props.Std
import Verif.Props.Struct
import Verif.Load.Base
import Verif.Load.MsgPack
import Verif.Load.Json
import Verif.Load.Into
import Verif.Load.IntoJson
import Verif.Load.Root
import Verif.Props.Load
import Verif.Load.Bson
import Verif.Load.BsonSim
import Verif.Props.LoadBson
import Verif.Yaml.Keep
import Verif.Load.Ops
import Verif.Load.Fill
import Verif.Load.World
import Verif.Load.BsonFill
import Verif.Load.Inside
import Verif.Load.Prog
import Verif.Heap.Read
import Verif.Props.Read
import Verif.Buf.Model
import Verif.Buf.MsgPack
import Verif.Buf.Json
import Verif.Buf.Bson
import Verif.Buf.Ops
import Verif.Props.Buf
import Verif.Props.Dest
import Verif.Props.Whole
import Verif.Props.After
import Verif.Props.Convert
import Verif.IO.Files
import Verif.Props.Files
import Verif.Load.Marshal
import Verif.Props.Marshal
import Verif.Reflect.Reg
import Verif.Props.Reg
import Verif.Tree.Sem
import Verif.Tree.Exact
import Verif.Tree.Refine
import Verif.Tree.Det
import Verif.Props.TreeSem
import Verif.Tree.Parse
import Verif.Tree.ParseDet
import Verif.Tree.Go
import Verif.Tree.Into
import Verif.Tree.IntoBson
import Verif.Tree.IntoFit
import Verif.Props.TreeParse
import Verif.Yaml.Refuse
import Verif.Props.YamlRefuse
import Verif.Heap.Ask
import Verif.Tree.Ask
import Verif.Heap.EqualKeep
import Verif.Heap.EqualAgain
import Verif.Tree.AskProg
import Verif.Props.Ask
import Verif.Props.EqualAgain
import Verif.Load.Outcome
import Verif.Props.Outcome
import Verif.Yaml.NoLoop
import Verif.Load.Ends
import Verif.Props.Ends
import Verif.Props.Pin
import Verif.Props.Twice
import Verif.Yaml.Pure
import Verif.Yaml.PureRun
import Verif.Yaml.PureLoad
import Verif.Props.YamlPure
import Verif.Props.GoTree
import Verif.Props.IntoTree
import Verif.Props.Fit
import Verif.Props.Reload
import Verif.Props.Rewrite
import Verif.Props.Again
import Verif.Props.JsonGrammar
import Verif.Props.MsgPackWire
import Verif.Props.BsonWire
import Verif.Props.BsonStuck
import Verif.Props.BsonReading
import Verif.Bson.ReadingAll
import Verif.Props.BsonReadingAll
import Verif.Bson.Index
import Verif.Props.BsonIndex
import Verif.Props.BsonLength
import Verif.MsgPack.Back
import Verif.Props.MsgPackBack
import Verif.Props.ConvertBinary
import Verif.Props.BsonAgain
import Verif.Props.MsgPackAgain
import Verif.Props.MsgPackExt
import Verif.Props.JsonCut
