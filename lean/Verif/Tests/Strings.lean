import Verif.Model.ConfigObject
import Verif.Model.CategoryRegistry
import Verif.Model.InlineZString
import Verif.Model.TraceEvent
/-
The expectations of the library's own tests on strings, configurations, arguments and categories, stated of
the model and computed by the kernel. These are checks of the model against the authors' expectations,
not proofs of properties.
-/
namespace Phosphor.Tests

/-! ### tests/module/string_utils_test.cc -/

-- FormatStringTest (string_utils_test.cc:25-39)
example : formatString "".toList = "".toList := by decide
example : formatString "hello, world".toList = "hello, world".toList := by decide
example : formatString (fmtInt 33) = "33".toList := by decide

-- ToJSONTest (string_utils_test.cc:43-47)
example : toJson "Hello, World".toList = "\"Hello, World\"".toList := by decide
example : toJson "\x08\x0c\n\r\t\\/\"".toList = "\"\\b\\f\\n\\r\\t\\\\\\/\\\"\"".toList := by decide

-- SplitStringTest (string_utils_test.cc:51-63)
example : splitString "ab".toList ' ' = ["ab".toList] := by decide
example : splitString "Hello, World".toList ' ' = ["Hello,".toList, "World".toList] := by decide
example : splitString "Hello, World".toList ',' = ["Hello".toList, " World".toList] := by decide
example : splitString "".toList ' ' = [[]] := by decide
example : splitString ",,,".toList ',' = [[], [], []] := by decide

-- JoinStringTest (string_utils_test.cc:65-73)
example : joinString ["hello".toList] ' ' = "hello".toList := by decide
example : joinString ["hello".toList, "world".toList] ' ' = "hello world".toList := by decide
example : joinString [] ' ' = [] := by decide
example : joinString ["hello".toList, "world".toList] ',' = "hello,world".toList := by decide
example : joinString ["hello".toList, []] ',' = "hello,".toList := by decide

-- SplitReplaceTest (string_utils_test.cc:77-82); the target is changed by the first call
example : stringReplace "Hello, World!".toList "World".toList "Will".toList = "Hello, Will!".toList := by decide
example : stringReplace "Hello, Will!".toList "Phosphor".toList "BruceWayne".toList = "Hello, Will!".toList := by decide
example : stringReplace "Hello, Will!".toList [] "Oswald".toList = "Hello, Will!".toList := by decide

-- GlobTest (string_utils_test.cc:86-107)
example : globMatch "*".toList "helloworld.json".toList = true := by decide
example : globMatch "*.json".toList "helloworld.json".toList = true := by decide
example : globMatch "hello*.json".toList "helloworld.json".toList = true := by decide
example : globMatch "helloworld?json".toList "helloworld.json".toList = true := by decide
example : globMatch "*h".toList "h".toList = true := by decide
example : globMatch "*".toList "h".toList = true := by decide
example : globMatch "*".toList [] = true := by decide
example : globMatch "heya*".toList "heya".toList = true := by decide
example : globMatch "helloworld".toList "helloworld".toList = true := by decide
example : globMatch "hello*world".toList "hello\x00\x00\x00world".toList = true := by decide
example : globMatch "hello".toList "world".toList = false := by decide
example : globMatch "a".toList [] = false := by decide
example : globMatch "?".toList [] = false := by decide
example : globMatch "*a".toList "b".toList = false := by decide
example : globMatch "+".toList "helloworld.json".toList = true := by decide
example : globMatch "+.json".toList "helloworld.json".toList = true := by decide
example : globMatch "hello+.json".toList "helloworld.json".toList = true := by decide
example : globMatch "+h".toList "h".toList = false := by decide
example : globMatch "+".toList "h".toList = true := by decide
example : globMatch "+".toList [] = false := by decide
example : globMatch "heya+".toList "heya".toList = false := by decide
example : globMatch "hello+world".toList "hello\x00\x00\x00world".toList = true := by decide

/-! ### tests/module/trace_config_test.cc -/

open Cfg

-- startup_trace (trace_config_test.cc:34-45)
def startupWorld : World := World.run ⟨fun _ => .new, none⟩ [.ofMode 0 .fixed 10000, .setStartupTrace 0]
example : startupWorld.startup.map Obj.getBufferSize = some 10000 := by decide
example : (startupWorld.run [.setStartupTrace 0, .clearStartupTrace]).startup = none := by decide

-- createFixed, createRing, createCustom, createModeErrors (trace_config_test.cc:51-105)
example : (Obj.ofMode .fixed 1337).bind (fun c => .ok (c.getBufferFactory, c.getBufferSize, c.getBufferMode)) =
    .ok (.makeFixed, 1337, .fixed) := by decide
example : (Obj.ofMode .ring 1337).bind (fun c => .ok (c.getBufferFactory, c.getBufferSize, c.getBufferMode)) =
    .ok (.makeRing, 1337, .ring) := by decide
example : (Obj.ofFactory (.user 1) 1337).getBufferFactory = .user 1 ∧
    (Obj.ofFactory (.user 1) 1337).getBufferMode = .custom := by decide
example : Obj.ofMode .custom 1337 = .throw .invalidArgument := by decide
example : Obj.ofMode (.invalid 0xFF) 1337 = .throw .invalidArgument := by decide

-- CategoryConfig (trace_config_test.cc:107-112)
example : ((Obj.new.setCategories ["hello".toList] ["world".toList]).getEnabledCategories,
    (Obj.new.setCategories ["hello".toList] ["world".toList]).getDisabledCategories) =
    (["hello".toList], ["world".toList]) := by decide

def configText : Str :=
  ("buffer-mode:ring;buffer-size:1024;save-on-stop:out.json;enabled-categories:hello,world;" ++
    "disabled-categories:*rld").toList

/-- What the tests ask of a configuration. -/
structure View where
  mode : BufferMode
  size : Nat
  callback : Bool
  onDestruct : Bool
  enabled : List Str
  disabled : List Str
  deriving DecidableEq

/-- What the tests see of a configuration. -/
def view (c : Obj) : View :=
  ⟨c.getBufferMode, c.getBufferSize, c.getStoppedCallback.isSome, c.getStopTracingOnDestruct,
    c.getEnabledCategories, c.getDisabledCategories⟩

-- updateFromString, fromString (trace_config_test.cc:114-167)
example : (Obj.ofMode .fixed 1337).bind (fun c => .ok (view (c.updateFromString configText).1)) =
    .ok ⟨.ring, 1024, true, true, ["hello".toList, "world".toList], ["*rld".toList]⟩ := by decide +kernel
example : (Obj.fromString configText).bind (fun c => .ok (view c)) =
    .ok ⟨.ring, 1024, true, true, ["hello".toList, "world".toList], ["*rld".toList]⟩ := by decide +kernel
example : (Obj.fromString "buffer-mode:fixed;buffer-size:1024;".toList).bind
    (fun c => .ok c.getStopTracingOnDestruct) = .ok false := by decide +kernel
example : Obj.fromString "buffer-mode:other".toList = .throw .invalidArgument := by decide +kernel
example : Obj.fromString "buffer-size:-1".toList = .throw .invalidArgument := by decide +kernel
example : Obj.fromString "buffer-size:999999999999999999".toList = .throw .invalidArgument := by decide +kernel
example : Obj.fromString "buffer-size:abcd".toList = .throw .invalidArgument := by decide +kernel
example : Obj.fromString "disabled-categories:".toList = .throw .invalidArgument := by decide +kernel

-- toString (trace_config_test.cc:169-189)
example : (TraceConfig.make .fixed 1337).bind (fun c =>
      TraceConfig.toString { c with enabled := ["hello".toList], disabled := ["world".toList] }) =
    .ok "buffer-mode:fixed;buffer-size:1337;enabled-categories:hello;disabled-categories:world".toList := by
  decide +kernel
example : (TraceConfig.make .ring 0).bind TraceConfig.toString =
    .ok "buffer-mode:ring;buffer-size:0;enabled-categories:*;disabled-categories:".toList := by decide +kernel
example : (TraceConfig.makeCustom 1 1337).toString =
    .ok "buffer-mode:custom;buffer-size:1337;enabled-categories:*;disabled-categories:".toList := by decide +kernel

-- getBufferFactoryReturnsCorrectFactoryForBuiltIns
example : (Obj.ofMode .fixed 1337).bind (fun c =>
    .ok (c.updateFromString "buffer-mode:ring".toList).1.getBufferFactory) = .ok .makeRing := by decide +kernel
example : (Obj.ofMode .ring 1337).bind (fun c =>
    .ok (c.updateFromString "buffer-mode:fixed".toList).1.getBufferFactory) = .ok .makeFixed := by decide +kernel

/-! ### tests/module/trace_argument_test.cc -/

-- enum_conversions (trace_argument_test.cc:31-72)
example : (CVal.bool true).getType = .isBool := by decide
example : [CVal.char 0, .short 0, .int 0, .long 0, .longLong 0].map CVal.getType = List.replicate 5 .isInt := by decide
example : [CVal.uchar 0, .ushort 0, .uint 0, .ulong 0, .ulongLong 0].map CVal.getType =
    List.replicate 5 .isUint := by decide
example : [CVal.float 0, .double 0].map CVal.getType = [.isDouble, .isDouble] := by decide
example : (CVal.ptr 0).getType = .isPointer := by decide
example : (CVal.cstring 0 []).getType = .isString := by decide
example : (CVal.istring []).getType = .isIstring := by decide

/-- `inner_to_string_test` (trace_argument_test.cc:74-78). -/
def innerToString (v : CVal) : Res Str := v.asArgument.toStr v.getType

-- to_string (trace_argument_test.cc:80-102)
example : innerToString (.bool true) = .ok "true".toList := by decide
example : innerToString (.bool false) = .ok "false".toList := by decide
example : innerToString (.int 3) = .ok "3".toList := by decide
example : innerToString (.int (-3)) = .ok "-3".toList := by decide
example : innerToString (.uint 3) = .ok "3".toList := by decide
example : innerToString (.double 0x4008000000000000#64) = .ok "3.000000".toList := by decide +kernel
example : innerToString (.ptr 0xFF) = .ok "\"0xff\"".toList := by decide
example : innerToString (.cstring 0x1000 "Hello, World".toList) = .ok "\"Hello, World\"".toList := by decide
example : (izOfCString 8 "Hello, World!\x00".toList).bind (fun st => innerToString (.istring st)) =
    .ok "\"Hello, W\"".toList := by decide
example : TraceArg.none.toStr .isNone = .ok "\"Type::is_none\"".toList := by decide

/-! ### tests/module/category_registry_test.cc -/

/-- A history of updates and of lookups with the status the test expects. -/
inductive RegTest
  | update (enabled disabled : List String)
  | disable
  | expect (status : Bool) (name : String)

/-- All expectations are met. -/
def regTest (r : Registry) : List RegTest → Bool
  | [] => true
  | .update e d :: ts =>
    match r.updateEnabled (e.map (·.toList)) (d.map (·.toList)) with
    | .ok r => regTest r ts
    | _ => false
  | .disable :: ts =>
    match r.disableAll with
    | .ok r => regTest r ts
    | _ => false
  | .expect b n :: ts =>
    match r.getStatus n.toList with
    | .ok (i, r) => decide (r.cell i = .ok b) && regTest r ts
    | _ => false

open RegTest

-- SwitchEnabled (category_registry_test.cc:29-37)
example : regTest .init [expect false "default", update ["default"] [""], expect true "default", update [""] [""],
    expect false "default", update ["default"] ["default"], expect false "default"] = true := by decide +kernel

-- MultiCategory, EnableBeforeFirstUse (category_registry_test.cc:39-52)
example : regTest .init [update ["notdefault", "default"] [""], expect true "default", expect true "notdefault"] = true := by
  decide +kernel
example : regTest .init [update ["Hello!"] [""], expect true "Hello!", update [""] [""], expect false "Hello!",
    update ["Hello!"] [""], expect true "Hello!"] = true := by decide +kernel

-- MultiMatch (category_registry_test.cc:54-65)
example : regTest .init [expect false "default,abcd", update ["abcd"] [""], expect true "default,abcd",
    expect true "abcd,default", expect false "default", update ["abcd", "default"] ["abcd"], expect true "default,abcd",
    expect true "abcd,default", expect true "default", expect false "abcd"] = true := by decide +kernel

-- WildcardEnable, WildcardPrefix (category_registry_test.cc:67-87)
example : regTest .init [update ["*"] [""], expect true "default", expect true "katkarang,heya"] = true := by
  decide +kernel
example : regTest .init [update ["memcached:*"] [""], expect true "memcached:cmd_get",
    expect true "memcached:cmd_set,kv:mutation", expect true "memcached:", update ["memcached:+"] [""],
    expect true "memcached:cmd_get", expect true "memcached:cmd_set,kv:mutation", expect false "memcached:"] = true := by
  decide +kernel

-- DisableAll (category_registry_test.cc:89-96)
example : regTest .init [update ["notdefault", "default"] [""], expect true "default", expect true "notdefault",
    disable, expect false "default", expect false "notdefault"] = true := by decide +kernel

end Phosphor.Tests
