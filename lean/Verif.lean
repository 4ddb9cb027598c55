import Verif.Num.Props
import Verif.Num.Shift
import Verif.Heap.Props
import Verif.Data.Ring
import Verif.Data.Trie
import Verif.Codec.Base64
import Verif.Codec.Url
import Verif.Codec.Date
import Verif.Codec.Utf8
import Verif.Tables.Props
import Verif.Equal.Props
import Verif.Gc.Weak
import Verif.Sdbm.Props
import Verif.Lang.Datum
import Verif.Lang.Dyn
import Verif.Lang.Exn
import Verif.Lang.Memo
import Verif.NumText.Props
import Verif.Reader.Defined
import Verif.Timers.Exact
import Verif.Barriers.Props
import Verif.Threads.Returns
import Verif.Sync.Props
import Verif.Peephole.Props
import Verif.Modules.Exports
import Verif.Modules.Sharing
import Verif.Regex.Quote
import Verif.Regex.Subst
import Verif.Regex.Cache
import Verif.Lambda.Props
import Verif.Backquote.Props
import Verif.Asm.Props
import Verif.Compile.Props
import Verif.FileName.Props
import Verif.Proc.Props
import Verif.Gaol.Props
import Verif.Md5.Props
import Verif.Stream.Props
import Verif.Stream.FormatProps
import Verif.Dbl.Props
import Verif.Dbl.Convert
import Verif.Xml.Props
import Verif.Rpc.Props
import Verif.Symtab.Props
import Verif.Macro.Props
import Verif.Hook.Props
import Verif.Forms.Model
import Verif.Forms.Spec
import Verif.Forms.Rules
import Verif.Forms.Rel
import Verif.Forms.Derived
import Verif.Forms.Sim
import Verif.Forms.Jobs
import Verif.Forms.Exprs
import Verif.Forms.Props
import Verif.Events.Model
import Verif.Events.Props
import Verif.Events.Fresh
import Verif.Origin.Model
import Verif.Origin.Props
import Verif.Define.Model
import Verif.Define.Spec
import Verif.Define.Scan
import Verif.Define.Forms
import Verif.Define.Sim
import Verif.Define.Step
import Verif.Define.Props
import Verif.Load.Model
import Verif.Load.Spec
import Verif.Load.Modules
import Verif.Load.Make
import Verif.Load.Does
import Verif.Load.Ends
import Verif.Load.Props
import Verif.Load.After
import Verif.Load.AfterProps
import Verif.Load.Search
import Verif.Array.Model
import Verif.Array.Spec
import Verif.Array.Props
import Verif.Text.Model
import Verif.Text.Props
import Verif.Handler.Model
import Verif.Handler.Props
import Verif.Handler.Copy
import Verif.Handler.Local
import Verif.Plist.Model
import Verif.Plist.Props
import Verif.Objects.Model
import Verif.Objects.Props
import Verif.Records.Model
import Verif.Records.Props
import Verif.Stack.Model
import Verif.Stack.Spec
import Verif.Stack.Typing
import Verif.Stack.Good
import Verif.Stack.Forms
import Verif.Stack.File
import Verif.Stack.Run
import Verif.Stack.Props
import Verif.TailCall.Model
import Verif.TailCall.Spec
import Verif.TailCall.Mem
import Verif.TailCall.Props
import Verif.TailCall.Space
import Verif.Canon.Model
import Verif.Canon.Spec
import Verif.Canon.Text
import Verif.Canon.Props
import Verif.Environ.Looking
import Verif.Environ.Model
import Verif.Environ.Spec
import Verif.Environ.Props
import Verif.Prim.Model
import Verif.Prim.Spec
import Verif.Prim.Ops
import Verif.Prim.Sim
import Verif.Prim.Props
import Verif.Heights.Model
import Verif.Heights.Spec
import Verif.Heights.Sim
import Verif.Heights.Props
import Verif.Math.Model
import Verif.Math.Spec
import Verif.Math.Props
import Verif.Time.Model
import Verif.Time.Spec
import Verif.Time.Props
import Verif.ListLib.Model
import Verif.ListLib.Spec
import Verif.ListLib.Props
import Verif.Remote.Model
import Verif.Remote.Spec
import Verif.Remote.Lemmas
import Verif.Remote.Server
import Verif.Remote.Client
import Verif.Remote.Props
import Verif.Sock.Model
import Verif.Sock.Spec
import Verif.Sock.Inv
import Verif.Sock.Steps
import Verif.Sock.Props
import Verif.Ffi.Model
import Verif.Ffi.Spec
import Verif.Ffi.Lemmas
import Verif.Ffi.Walk
import Verif.Ffi.Types
import Verif.Ffi.Props
import Verif.Dl.Model
import Verif.Dl.Spec
import Verif.Dl.Inv
import Verif.Dl.Props
import Verif.Proxy.Model
import Verif.Proxy.Spec
import Verif.Proxy.Inv
import Verif.Proxy.Props
import Verif.Cgi.Model
import Verif.Cgi.Spec
import Verif.Cgi.Props
import Verif.DebugBuf.Model
import Verif.DebugBuf.Props
import Verif.Auto.Model
import Verif.Auto.Props
import Verif.Prof.Model
import Verif.Prof.Props
import Verif.Dbl.MaxMinModel
import Verif.Dbl.MaxMin
import Verif.Tar.Model
import Verif.Tar.Props
import Verif.Tar.Modes
import Verif.Num.RandomModel
import Verif.Num.Random
import Verif.Dbl.SqrtModel
import Verif.Dbl.Sqrt
import Verif.PrintLimit.Model
import Verif.PrintLimit.Props
import Verif.Dbl.TextModel
import Verif.Dbl.Text
import Verif.Disasm.Model
import Verif.Disasm.Spec
import Verif.Disasm.Props
import Verif.FileName.RemoteModel
import Verif.FileName.Remote
import Verif.Repdoc.Model
import Verif.Repdoc.Props
import Verif.DateText.Model
import Verif.DateText.Props
import Verif.StructWalk.Model
import Verif.StructWalk.Props
import Verif.CmdLine.Model
import Verif.CmdLine.Props
import Verif.Xgettext.Model
import Verif.Xgettext.Props
import Verif.SelfTest.Model
import Verif.SelfTest.Props
import Verif.Ispell.Model
import Verif.Ispell.Props
import Verif.Forbid.Model
import Verif.Forbid.Props
import Verif.EditLoop.Model
import Verif.EditLoop.Props
import Verif.Idle.Model
import Verif.Idle.Props
import Verif.DocFile.Model
import Verif.DocFile.Props
import Verif.Repl.Model
import Verif.Repl.Props
import Verif.CompFile.Model
import Verif.CompFile.Props
import Verif.Stepper.Model
import Verif.Stepper.Props
import Verif.Gdbm.Model
import Verif.Gdbm.Props
