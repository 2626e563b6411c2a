import Verif.TM.Witness
import Verif.Pool.Witness
import Verif.Sig.Witness
import Verif.Build.Witness
import Verif.Store.Witness
import Verif.Cache.Share
import Verif.Cache.Lock
import Verif.Cache.Key
import Verif.Cache.KeyDeps
import Verif.Cache.Exec
import Verif.Subst.Witness
import Verif.Cpp.Witness
import Verif.Scan.Witness
import Verif.Scan.Find
import Verif.Act.Model
import Verif.Act.Props
import Verif.Act.Witness
import Verif.TM.Groups
import Verif.Build.Group
import Verif.Build.Compose
import Verif.Build.NullBuild
import Verif.Build.ComposeWitness
import Verif.Act.Leaf
import Verif.TM.Term
import Verif.TM.Only
import Verif.Whole.Witness
import Verif.Env.OverrideProps
import Verif.Env.AppendProps
import Verif.Env.CppdefProps
import Verif.Env.CloneProps
import Verif.Util.Path
import Verif.Shell.Props
import Verif.Shell.Ixes
import Verif.FS.Lookup
import Verif.FS.LookupProps
import Verif.FS.NodeProps
import Verif.Script.Question
import Verif.Script.QuestionWitness
import Verif.Script.Clean
import Verif.Script.CleanWitness
import Verif.Script.FsDelete
import Verif.Sig.Explain
import Verif.Bld.Calls
import Verif.Bld.Props
import Verif.Bld.Execs
import Verif.Vars.Model
import Verif.Vars.Props
import Verif.Vars.Save
import Verif.Pool.Legacy
import Verif.Pool.Total
import Verif.Pool.LegacyWitness
import Verif.Script.DryRun
import Verif.Script.DryWitness
import Verif.Script.Targets
import Verif.Env.Flags
import Verif.Env.FlagsProps
import Verif.FS.Variant
import Verif.FS.VariantProps
import Verif.FS.Dup
import Verif.FS.DupProps
import Verif.FS.DupQuery
import Verif.FS.DupPlain
import Verif.FS.DupMore
import Verif.Script.Sconscript
import Verif.Script.SconscriptProps
import Verif.Script.SconscriptOs
import Verif.FS.Glob
import Verif.FS.GlobProps
import Verif.FS.GlobMore
import Verif.Conf.Model
import Verif.Conf.Props
import Verif.Conf.Checks
import Verif.Conf.Modes
import Verif.Conf.Witness
import Verif.Conf.Names
import Verif.Act.PyCode
import Verif.Act.PyCodeProps
import Verif.Scan.Dirs
import Verif.Scan.DirsProps
import Verif.Sig.Alias
import Verif.Sig.AliasProps
import Verif.Build.Session
import Verif.Build.SessionClean
import Verif.Build.SessionWitness
import Verif.Bld.Chain
import Verif.Bld.ChainProps
import Verif.Bld.ChainMore
import Verif.Bld.ChainWitness
import Verif.Repo.Model
import Verif.Repo.Props
import Verif.Repo.Witness
import Verif.Bld.Batch
import Verif.Bld.BatchProps
import Verif.Bld.BatchWitness
import Verif.Script.Options
import Verif.Script.OptionsProps
import Verif.Script.OptionsWitness
import Verif.Scan.Prog
import Verif.Scan.ProgProps
import Verif.Scan.ImplicitCache
import Verif.Scan.ImplicitCacheProps
import Verif.Scan.ImplicitCacheWitness
import Verif.Act.Install
import Verif.Act.InstallProps
import Verif.Act.InstallWitness
import Verif.Act.Chmod
import Verif.Act.ChmodProps
import Verif.Build.Timed
import Verif.Build.TimedProps
import Verif.Build.TimedWitness
import Verif.Subst.Signed
import Verif.Act.Contents
import Verif.Act.ContentsProps
import Verif.Act.ContentsWitness
import Verif.Act.CmdDeps
import Verif.Act.CmdDepsProps
import Verif.Act.CmdDepsWitness
import Verif.Shell.TempFile
import Verif.Shell.TempFileProps
import Verif.Shell.TempFileWitness
import Verif.Scan.CText
import Verif.Scan.CTextProps
import Verif.Scan.CTextWitness
import Verif.Bld.PrePost
import Verif.Bld.PrePostProps
import Verif.Bld.PrePostWitness
import Verif.Cpp.Expr
import Verif.Cpp.ExprProps
import Verif.Cpp.ExprWitness
import Verif.Cpp.Text
import Verif.Cpp.TextProps
import Verif.Cpp.TextWitness
import Verif.Java.Parse
import Verif.Java.Props
import Verif.Java.Witness
import Verif.Text.File
import Verif.Text.FileProps
import Verif.Text.FileSig
import Verif.Text.FileWitness
import Verif.Text.Depends
import Verif.Text.DependsProps
import Verif.Text.DependsWitness
import Verif.Kids.Model
import Verif.Kids.Props
import Verif.Kids.Witness
import Verif.Decide.Model
import Verif.Decide.Props
import Verif.Decide.Witness
import Verif.ShellEnv.Model
import Verif.ShellEnv.Props
import Verif.ShellEnv.Witness
import Verif.Warn.Model
import Verif.Warn.Props
import Verif.Tex.Model
import Verif.Tex.Props
import Verif.Tex.Witness
import Verif.Fortran.Regex
import Verif.Fortran.Model
import Verif.Fortran.Spec
import Verif.Fortran.Lemmas
import Verif.Fortran.Props
import Verif.Fortran.Props2
import Verif.Fortran.Witness
import Verif.Methods.Model
import Verif.Methods.Spec
import Verif.Methods.Props
import Verif.Methods.Main
import Verif.Methods.Witness
import Verif.Cache.Open
import Verif.Cache.OpenProps
import Verif.Cache.OpenMain
import Verif.Cache.Convert
import Verif.Cache.ConvertProps
import Verif.FileAct.Model
import Verif.FileAct.Props
import Verif.FileAct.Copy
import Verif.ConfH.Model
import Verif.ConfH.Spec
import Verif.ConfH.Props
import Verif.ConfH.Main
import Verif.ConfH.Examples
import Verif.ShLib.Model
import Verif.ShLib.Props
import Verif.ShLib.Names
import Verif.PathL.Model
import Verif.PathL.Props
import Verif.PyScan.Model
import Verif.PyScan.Spec
import Verif.PyScan.Text
import Verif.PyScan.Stmts
import Verif.PyScan.Find
import Verif.PyScan.Examples
import Verif.TexScan.Model
import Verif.TexScan.Spec
import Verif.TexScan.Comments
import Verif.TexScan.Commands
import Verif.TexScan.Find
import Verif.TexScan.Examples
import Verif.Zip.Model
import Verif.Zip.Spec
import Verif.Zip.Props
import Verif.Zip.Examples
import Verif.CacheSys.Model
import Verif.CacheSys.Inv
import Verif.CacheSys.Props
import Verif.CacheSys.Second
import Verif.CacheSys.Examples
import Verif.Attrs.Model
import Verif.Attrs.Spec
import Verif.Attrs.Props
import Verif.Attrs.More
import Verif.Attrs.Examples
import Verif.Tree.Model
import Verif.Tree.Spec
import Verif.Tree.Props
import Verif.Tree.More
import Verif.Tree.Main
import Verif.Tree.Bars
import Verif.Tree.Examples
import Verif.Hash.Model
import Verif.Hash.Spec
import Verif.Hash.Props
import Verif.Hash.Main
import Verif.Hash.Examples
import Verif.CompDb.Model
import Verif.CompDb.Spec
import Verif.CompDb.Props
import Verif.CompDb.Json
import Verif.CompDb.Main
import Verif.CompDb.Examples
import Verif.ActMake.Model
import Verif.ActMake.Spec
import Verif.ActMake.Props
import Verif.ActMake.Main
import Verif.ActMake.Examples
import Verif.Prep.Model
import Verif.Prep.Spec
import Verif.Prep.Props
import Verif.Prep.Main
import Verif.Prep.Sched
import Verif.Prep.Examples
import Verif.Link.Model
import Verif.Link.Props
import Verif.Lists.Model
import Verif.Lists.Spec
import Verif.Lists.Props
import Verif.Lists.Main
import Verif.Select.Model
import Verif.Select.Props
import Verif.DScan.Model
import Verif.DScan.Props
import Verif.JavaCp.Model
import Verif.JavaCp.Props
import Verif.Yacc.Model
import Verif.Yacc.Props
import Verif.Swig.Model
import Verif.Swig.Props
import Verif.Pot.Model
import Verif.Pot.Props
import Verif.Jar.Model
import Verif.Jar.Props
import Verif.Vars.Package
import Verif.Iface.Model
import Verif.Iface.Props
import Verif.Ver.Model
import Verif.Ver.Props
import Verif.Util.FindProg
import Verif.InstTo.Model
import Verif.InstTo.Props
