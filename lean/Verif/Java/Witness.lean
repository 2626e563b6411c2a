import Verif.Java.Props
/-!
# C91: an applied case, and the counterexamples
-/
namespace Verif.Java.Ex

def w (s : String) : Tok := .word s.toList
def y (s : String) : Tok := .sym s.toList
/-- Several plain tokens. -/
def ts (l : List Tok) (r : Code) : Code := l.foldr .tok r

/-- A package, a nested class, local classes of the same name in two methods, anonymous
classes in arguments, in a field and in each other, arrays, comments and strings. -/
def text : Str :=
  ("/* class No { */\n" ++
  "package org.x;\n" ++
  "import java.util.List;\n" ++
  "public class A<Item> extends B implements C {\n" ++
  "  String s = \"class No {\"; // new No() {\n" ++
  "  Class k = String[].class;\n" ++
  "  int[] v = new int[]{1, 2};\n" ++
  "  Object o = new Foo(new Bar() { }, 2.5) {\n" ++
  "    Object q = new Baz<Item>() { };\n" ++
  "  };\n" ++
  "  void f() { class L { } new Foo(); }\n" ++
  "  void g() { for (;;) { class L { Object p = new X() { }; } } }\n" ++
  "  static interface I { }\n" ++
  "}\n" ++
  "enum E { P, Q }\n").toList

def source : Source where
  pre := .skipped .block [.class_, w "No", .lb] (ts [.nl] .nil)
  package := some "org.x".toList
  main :=
    ts [y ";", .nl, w "import", w "java.util.List", y ";", .nl, w "public"] <|
    .cls .class_ 0 "A".toList [.generic "<Item>".toList, w "extends", w "B", w "implements", w "C"]
      (ts [.nl, w "String", w "s"] <| .skipped .string [.class_, w "No", .lb] <| ts [y ";"] <|
       .skipped .line [.new, w "No", .lp, .rp, .lb] <| ts [w "Class", w "k", w "String", y "[]"] <| .attr .class_ <|
       ts [y ";", .nl, w "int", y "[]", w "v"] <| .arr "int".toList <| ts [y "[]"] <| .block .nil <| ts [y ";", .nl, w "Object", w "o"] <|
       .anon "Foo".toList [] (.anon "Bar".toList [] .nil [] .nil <| ts [y "2.5"] .nil) []
         (ts [.nl, w "Object", w "q"] <| .anon "Baz".toList [.generic "<Item>".toList] .nil [] .nil <| ts [y ";", .nl] .nil) <|
       ts [y ";", .nl, w "void", w "f"] <| .par .nil <|
       .block (.cls .class_ 0 "L".toList [] .nil <| .obj "Foo".toList [] .nil [] <| ts [y ";"] .nil) <|
       ts [.nl, w "void", w "g"] <| .par .nil <|
       .block (ts [w "for"] <| .par (ts [y ";", y ";"] .nil) <|
         .block (.cls .class_ 0 "L".toList [] (ts [w "Object", w "p"] <| .anon "X".toList [] .nil [] .nil <| ts [y ";"] .nil) .nil) .nil) <|
       ts [.nl, w "static"] <| .cls .interface 0 "I".toList [] .nil <| ts [.nl] .nil) <|
    ts [.nl] <| .cls .enum 0 "E".toList [] (ts [w "P", w "Q"] .nil) <| ts [.nl] .nil

theorem applied : parseJava .modern text = some (some "org/x".toList,
    ["A$1".toList, "A$2".toList, "A$2$1".toList, "A$1L".toList, "A$2L$1".toList, "A$2L".toList, "A$I".toList, "A".toList, "E".toList]) := by
  rw [C91_class_files_partial source (by decide +kernel) (by decide +kernel) (by decide +kernel) (by decide +kernel) text (by decide +kernel)]
  decide +kernel

/-- Escaped quotes and backslashes do not end a string or a character; a type argument may have two letters. -/
def quoted : Source where
  pre := .nil
  package := none
  main := .cls .class_ 0 "A".toList [.generic "<It>".toList]
    (ts [w "String", w "s"] <| .skipped .string [w "a", y "\\\"", .class_, w "No", .lb, y "\\\\"] <| ts [y ";", w "char", w "c"] <|
     .skipped .char [y "\\'"] <| ts [y ";", w "Object", w "o"] <|
     .anon "Baz".toList [.generic "<It>".toList] .nil [] .nil <| ts [y ";"] .nil) .nil

def quotedText : Str := "class A<It> { String s = \"a \\\" class No { \\\\\"; char c = '\\''; Object o = new Baz<It>() { }; }".toList

theorem applied_quoted : parseJava .modern quotedText = some (none, ["A$1".toList, "A".toList]) := by
  rw [C91_class_files_partial quoted (by decide +kernel) (by decide +kernel) (by decide +kernel) (by decide +kernel) quotedText (by decide +kernel)]
  decide +kernel

/-! ### What the full property says and the code does not do -/

def found (s : String) : Option (List String) := (parseJava .modern s.toList).map fun p => p.2.map String.ofList

/-- A constructor reference among the arguments of `new`: the parenthesis after it is taken
for the type, the arguments never end, and no class file at all is found. -/
theorem constructor_reference : found "class A { Object o = new Foo(Bar::new); class B { } }" = some [] := by decide +kernel

/-- Two type arguments: the anonymous class is not found. -/
theorem two_type_arguments : found "class A { Object o = new HashMap<String, Integer>() {{ put(1); }}; }" = some ["A"] := by decide +kernel

/-- So with a type argument of one letter. -/
theorem short_type_argument : found "class A<T> { Object o = new Foo<T>() { }; }" = some ["A"] := by decide +kernel

/-- So with `new` at the end of a line. -/
theorem new_at_end_of_line : found "class A { Object o = new\n Foo() { }; }" = some ["A"] := by decide +kernel

/-- So with a qualified `new`. -/
theorem qualified_new : found "class A { Object o = x.new Foo() { }; }" = some ["A"] := by decide +kernel

/-- A class declared within an anonymous class is not found. -/
theorem class_in_anonymous : found "class A { Object o = new Foo() { class B { } }; }" = some ["A$1", "A"] := by decide +kernel

/-- So a class declared in a lambda expression among the arguments of `new`. -/
theorem class_in_arguments : found "class A { Object o = new Foo(() -> { class B { } }); }" = some ["A"] := by decide +kernel

/-- Records are not known. -/
theorem record_missing : found "record P(int x) { } class A { }" = some ["A"] := by decide +kernel

/-- The classes of enumeration constants are not found. -/
theorem enum_constant_body : found "enum E { A { }, B }" = some ["E"] := by decide +kernel

/-- A quote within a text block: what follows is taken for a string. -/
theorem text_block : found "class A { String s = \"\"\" \" \"\"\"; class B { } }" = some [] := by decide +kernel

end Verif.Java.Ex
