/-!
# C97: which warnings are shown

Models /repo/SCons/Warnings.py (the classes 81-194, `suppressWarningClass`, `enableWarningClass` 196-202, `warn` 220-237,
`process_warn_strings` 239-291), the places that call it: /repo/SCons/Script/Main.py 946-953 and 1139-1148, and
/repo/SCons/Script/SConsOptions.py `set_option` 218-222 and 233, `opt_warn` 1171-1175 and `__getattr__` 107-125, as far as
they concern `warn`.

Simplifications: text is ASCII; one class `foreign` stands for the classes defined in other modules; warnings are
printed (`_warningAsException` is never set by SCons itself); the splitting of `--warn=a,b` at commas is not modelled.
-/

namespace Verif.Warn

abbrev Str := List Char

/-- The warning classes (Warnings.py:81-194). -/
inductive Cls where
  | scons | onByDefault | link | cacheVersion | cacheWriteError | cacheCleanupError | corruptSConsign | dependency
  | developmentVersion | duplicateEnvironment | fortranCxxMix | futureReservedVariable | misleadingKeywords
  | missingSConscript | noObjectCount | noParallelSupport | reservedVariable | stackSize | targetNotBuilt
  | visualCMissing | visualVersionMismatch | visualStudioMissing | futureDeprecated | deprecated
  | mandatoryDeprecated | pythonVersion | deprecatedOptions | deprecatedDebugOptions
  | foreign
deriving DecidableEq, Repr

/-- The class a class is derived from. -/
def Cls.base : Cls → Option Cls
  | .scons => none
  | .onByDefault => some .scons
  | .link => some .onByDefault
  | .cacheVersion => some .onByDefault
  | .cacheWriteError => some .scons
  | .cacheCleanupError => some .scons
  | .corruptSConsign => some .onByDefault
  | .dependency => some .scons
  | .developmentVersion => some .onByDefault
  | .duplicateEnvironment => some .onByDefault
  | .fortranCxxMix => some .link
  | .futureReservedVariable => some .onByDefault
  | .misleadingKeywords => some .onByDefault
  | .missingSConscript => some .onByDefault
  | .noObjectCount => some .onByDefault
  | .noParallelSupport => some .onByDefault
  | .reservedVariable => some .onByDefault
  | .stackSize => some .onByDefault
  | .targetNotBuilt => some .scons
  | .visualCMissing => some .onByDefault
  | .visualVersionMismatch => some .onByDefault
  | .visualStudioMissing => some .scons
  | .futureDeprecated => some .scons
  | .deprecated => some .scons
  | .mandatoryDeprecated => some .deprecated
  | .pythonVersion => some .deprecated
  | .deprecatedOptions => some .mandatoryDeprecated
  | .deprecatedDebugOptions => some .mandatoryDeprecated
  | .foreign => some .scons

/-- `issubclass(c, d)`; no class is more than three steps from `SConsWarning`. -/
def Cls.isA (c d : Cls) : Bool :=
  c = d || match c.base with
    | none => false
    | some b => b = d || match b.base with
      | none => false
      | some b' => b' = d || match b'.base with
        | none => false
        | some b'' => b'' = d

/-- The names in the module; `foreign` has none there. -/
def Cls.name : Cls → Option String
  | .scons => some "SConsWarning"
  | .onByDefault => some "WarningOnByDefault"
  | .link => some "LinkWarning"
  | .cacheVersion => some "CacheVersionWarning"
  | .cacheWriteError => some "CacheWriteErrorWarning"
  | .cacheCleanupError => some "CacheCleanupErrorWarning"
  | .corruptSConsign => some "CorruptSConsignWarning"
  | .dependency => some "DependencyWarning"
  | .developmentVersion => some "DevelopmentVersionWarning"
  | .duplicateEnvironment => some "DuplicateEnvironmentWarning"
  | .fortranCxxMix => some "FortranCxxMixWarning"
  | .futureReservedVariable => some "FutureReservedVariableWarning"
  | .misleadingKeywords => some "MisleadingKeywordsWarning"
  | .missingSConscript => some "MissingSConscriptWarning"
  | .noObjectCount => some "NoObjectCountWarning"
  | .noParallelSupport => some "NoParallelSupportWarning"
  | .reservedVariable => some "ReservedVariableWarning"
  | .stackSize => some "StackSizeWarning"
  | .targetNotBuilt => some "TargetNotBuiltWarning"
  | .visualCMissing => some "VisualCMissingWarning"
  | .visualVersionMismatch => some "VisualVersionMismatch"
  | .visualStudioMissing => some "VisualStudioMissingWarning"
  | .futureDeprecated => some "FutureDeprecatedWarning"
  | .deprecated => some "DeprecatedWarning"
  | .mandatoryDeprecated => some "MandatoryDeprecatedWarning"
  | .pythonVersion => some "PythonVersionWarning"
  | .deprecatedOptions => some "DeprecatedOptionsWarning"
  | .deprecatedDebugOptions => some "DeprecatedDebugOptionsWarning"
  | .foreign => none

def classes : List Cls :=
  [.scons, .onByDefault, .link, .cacheVersion, .cacheWriteError, .cacheCleanupError, .corruptSConsign, .dependency,
   .developmentVersion, .duplicateEnvironment, .fortranCxxMix, .futureReservedVariable, .misleadingKeywords,
   .missingSConscript, .noObjectCount, .noParallelSupport, .reservedVariable, .stackSize, .targetNotBuilt,
   .visualCMissing, .visualVersionMismatch, .visualStudioMissing, .futureDeprecated, .deprecated,
   .mandatoryDeprecated, .pythonVersion, .deprecatedOptions, .deprecatedDebugOptions]

/-- `globals()[class_name]` -/
def lookupCls (n : Str) : Option Cls := classes.find? fun c => c.name.map String.toList == some n

/-- `s.replace("-", " ").title().replace(" ", "")`, where the flag says whether the last character was a letter. -/
def title : Bool → Str → Str
  | _, [] => []
  | inWord, c :: r =>
    if c = '-' ∨ c = ' ' then title false r
    else (if inWord then c.toLower else c.toUpper) :: title c.isAlpha r

/-- `s.replace("Scons", "SCons")` -/
def sconsCase : Str → Str
  | 'S' :: 'c' :: 'o' :: 'n' :: 's' :: r => 'S' :: 'C' :: 'o' :: 'n' :: 's' :: sconsCase r
  | c :: r => c :: sconsCase r
  | [] => []

/-- The class an argument without `no-` names (Warnings.py:276-281). -/
def classOf (arg : Str) : Option Cls :=
  if arg = "all".toList then lookupCls "SConsWarning".toList
  else lookupCls (sconsCase (title false arg) ++ "Warning".toList)

/-- The `no-` prefix (Warnings.py:269-275). -/
def splitNo (arg : Str) : Bool × Str :=
  if "no-".toList.isPrefixOf arg ∧ arg ≠ "no-object-count".toList ∧ arg ≠ "no-parallel-support".toList
  then (false, arg.drop 3) else (true, arg)

/-- `_enabled`: the entries, the latest first. -/
abbrev Enabled := List (Cls × Bool)

/-- One argument of `process_warn_strings`. -/
def process1 (E : Enabled) (arg : Str) : Enabled :=
  match classOf (splitNo arg).2 with
  | none => E
  | some c =>
    if (splitNo arg).1 then (c, true) :: E
    else if c.isA .mandatoryDeprecated then E
    else (c, false) :: E

def process (E : Enabled) (args : List Str) : Enabled := args.foldl process1 E

/-- `warn`: is the warning shown? -/
def shows (E : Enabled) (c : Cls) : Bool :=
  match E.find? fun p => c.isA p.1 with
  | some p => p.2
  | none => false

/-- A session: `_enabled`, the list the command line option extends (that of the defaults: `parser.values.warn` is no
attribute of its own), and what `SetOption` collected. -/
structure St where
  enabled : Enabled
  cmd : List Str
  setting : Option (List Str)

/-- Main.py:946-953. -/
def start (cmd : List Str) : St :=
  ⟨process ((.deprecated, true) :: (.onByDefault, true) :: []) cmd, cmd, none⟩

/-- `options.warn`: `SetOption` values are found before the list of the defaults. -/
def St.warn (s : St) : List Str := s.setting.getD s.cmd

/-- `SetOption('warn', value)` (SConsOptions.py:218-222, 233). -/
def setOption (s : St) (value : List Str) : St :=
  let v := s.setting.getD [] ++ value
  ⟨process s.enabled v, s.cmd, some v⟩

/-- Main.py:1148, when all SConscript files have been read. -/
def endRead (s : St) : St := { s with enabled := process s.enabled s.warn }

/-- What happens after the start. -/
inductive Ev where
  | set (value : List Str)
  | endRead

def St.ev (s : St) : Ev → St
  | .set v => setOption s v
  | .endRead => Verif.Warn.endRead s

def run (cmd : List Str) (evs : List Ev) : St := evs.foldl St.ev (start cmd)

end Verif.Warn
