import Verif.Conformance.Basic
import Verif.Model.Path
import Verif.Model.PathMore
/-
/repo/test/test_path.cpp. Memory is granted whenever it is asked for.
-/
namespace Solace.Conformance.TestPath
open Solace

def vec (_ : Nat) : Except Err Unit := .ok ()
def slash := b "/"

/-- `makePathSafe("...", "...", ...)`; one string only goes through `makePath(StringView)`. -/
def mk (l : List String) : Path :=
  match l with
  | [s] => (ok? (Path.single heap vec (b s))).getD .none
  | l => (ok? (Path.make heap vec (l.map fun s => .str (b s)))).getD .none
def root := Path.root heap vec
def parse (s : String) (d : String := "/") : Option Path := (Path.parse heap vec 200 (b s) (b d)).bind ok?
def eqv (r : Option Path) (p : Path) : Bool := r.map p.equals == some true
def text (p : Path) (d : String := "/") : Option (List Byte) := val (p.toString heap (b d))
def yes (r : Outcome Bool) : Bool := val r == some true
def no (r : Outcome Bool) : Bool := val r == some false
def sign (r : Outcome Int) : Option Int := (val r).map Int.sign

-- testRootIsSingleComponent, testRootAbsolute, defaultConstructedPathIsEmpty, nonEmptyPathIsNotEmpty, 58-82
#guard root.comps.length = 1 && yes root.isAbsolute
#guard Path.none.comps = [] && Path.none.length slash = 0
#guard (mk ["file"]).comps ≠ [] && (mk ["some", "path", "to", "file"]).comps ≠ []
-- testLength, 85-108
#guard (mk ["file"]).length slash = 4 && (mk [""]).length slash = 1 && (mk [""]).length (b "[]lll") = 5
#guard (mk ["some", "path", "to", "file"]).length slash = "some/path/to/file".length
#guard (mk ["", "file"]).length slash = "/file".length
#guard (mk ["", "some", "path", "to", "file"]).length slash = "/some/path/to/file".length
#guard (mk ["", "some", "path", "to", "file"]).length (b "[-:]") = "[-:]some[-:]path[-:]to[-:]file".length
-- testComparable, 113-141
def p1 := mk ["1", "2", "3", "4", "file"]
def other := mk ["something", "2", "3", "file"]
#guard p1.equals p1 && !p1.equals other && !other.equals p1 && sign (p1.compareTo p1) = some 0
-- compareTo, 144-160
def ordered : List (List String × List String) :=
  [(["aa"], ["ab"]), (["a", "a"], ["a", "b"]), (["a", "a"], ["a", "c"]), (["a", "b", "c"], ["a", "b", "c", "d"]),
   (["a", "b", "c"], ["a", "b", "c", "d", "e"]), (["a", "a", "c"], ["a", "c", "c", "d", "e"])]
#guard ordered.all fun (x, y) => sign ((mk x).compareTo (mk y)) == some (-1) && sign ((mk y).compareTo (mk x)) == some 1
-- testStartsWith, 163-199
def p2 := mk ["some", "path", "to", "a", "file"]
#guard yes (p2.startsWith p2) && yes (p2.startsWithText heap (b "som")) && yes (p2.startsWithText heap (b "some"))
#guard yes (p2.startsWith (mk ["some", "pa"])) && yes (p2.startsWith (mk ["some", "path"])) && yes (p2.startsWith (mk ["some", "path", "t"]))
#guard no (p2.startsWith (mk ["so", "pa"])) && no (p2.startsWith (mk ["some", "pa", "to"]))
#guard yes (p1.startsWith p1) && yes (p1.startsWith (mk ["1"])) && yes (p1.startsWith (mk ["1", "2", "3"]))
#guard no (p1.startsWith (mk ["2", "3", "4"])) && no ((mk ["1", "2", "3"]).startsWith (mk ["2", "3", "4"]))
#guard no ((mk ["2", "3", "4"]).startsWith p1) && no ((mk ["2", "3", "4"]).startsWith (mk ["2", "3", "4", ""]))
-- testEndsWith, 202-238
def p3 := mk ["some", "path", "to", "awesome", "file.awe"]
#guard yes (p3.endsWith p3) && yes (p3.endsWithText heap (b "awe")) && yes (p3.endsWithText heap (b "file.awe"))
#guard [["some", "file.awe"], ["awesome", "file.awe"], ["to", "awesome", "file.awe"]].all fun q => yes (p3.endsWith (mk q))
#guard [["to", "awe", "file.awe"], ["to", "some", "file.awe"]].all fun q => no (p3.endsWith (mk q))
#guard yes (p1.endsWith p1) && yes (p1.endsWith (mk ["file"])) && yes (p1.endsWith (mk ["3", "4", "file"]))
#guard no (p1.endsWith (mk ["2", "3", "4"])) && no ((mk ["3", "4", "file"]).endsWith (mk ["2", "3", "4"]))
#guard no ((mk ["2", "3", "4"]).endsWith p1) && no ((mk ["2", "3", "4"]).endsWith (mk ["", "1", "2", "3", "4"]))
-- testContains, 241-262
#guard yes (p1.contains p1) && yes (p1.contains (mk ["2", "3", "4"]))
#guard yes (p1.containsText heap [0#8] (b "file") [0#8]) && yes (p1.containsText heap [0#8] (b "2") [0#8])
#guard no (p1.contains (mk ["4", "3", "file"])) && no ((mk ["2", "3", "4"]).contains (mk ["4", "3", "file"]))
#guard no ((mk ["2", "3", "4"]).contains p1) && no (p1.contains (mk ["1", "2", "5"]))
-- testGetParent, 265-292
#guard eqv (val (p1.getParent heap vec)) (mk ["1", "2", "3", "4"])
#guard eqv (val ((mk ["file"]).getParent heap vec)) (mk ["file"])
#guard eqv (val ((mk [""]).getParent heap vec)) (mk [""]) && eqv (val ((mk ["", "file"]).getParent heap vec)) (mk [""])
#guard (val (Path.none.getParent heap vec)).map (·.comps) = some []
-- testBasename, 295-314
#guard Path.none.getBasename = [] && (mk [""]).getBasename = slash
#guard [(["file"], "file"), (["", "file"], "file"), (["."], "."), ([".."], ".."), (["", "."], "."), (["", ".."], ".."),
  (["", "etc"], "etc"), (["", "etc", ""], ""), (["", "etc", "file"], "file"), (["", "etc", ".."], ".."), (["etc", "..", "."], "."),
  (["1", "2", "3", "4", "file"], "file")].all fun (p, n) => (mk p).getBasename == b n
-- testUnixBasename, 317-328
#guard [("/usr/lib", "lib"), ("/usr/", "usr"), ("/", "/")].all fun (s, n) => (parse s).map Path.getBasename == some (b n)
-- testComponents, 331-341
#guard (List.range 5).map (fun i => val (p1.component i)) = ["1", "2", "3", "4", "file"].map fun s => some (b s)
-- testSubpath, 344-357
#guard eqv (val (p1.subpath heap vec 0 3)) (mk ["1", "2", "3"]) && eqv (val (p1.subpath heap vec 2 5)) (mk ["3", "4", "file"])
#guard eqv (val (p1.subpath heap vec 1 3)) (mk ["2", "3"])
#guard (val (p1.subpath heap vec 1 23)).map (·.comps.length) = some 4
#guard (val (p1.subpath heap vec 17 18)).map (·.comps) = some [] && (val (p1.subpath heap vec 3 1)).map (·.comps) = some []
-- testJoin, 360-374
def join (l : List Path.Arg) : Option Path := ok? (Path.make heap vec l)
#guard eqv (join [.path (mk ["etc"]), .path (mk ["file"])]) (mk ["etc", "file"])
#guard eqv (join [.path (mk ["etc"]), .str (b "file")]) (mk ["etc", "file"])
#guard eqv (join (["etc", "some", "long", "path"].map fun s => .path (mk [s]))) (mk ["etc", "some", "long", "path"])
#guard eqv (parse "etc/some/long/path") (mk ["etc", "some", "long", "path"])
-- testIterable, testForEach, 377-399
def p4 := mk ["e", "so", "lon", "path", "foilx"]
#guard (((Path.rangeFor 99 p4.begin' p4.end').bind val).map fun l => l.map List.length) = some [1, 2, 3, 4, 5]
#guard val (Path.forEach (fun s x => .ok (s ++ [x.length])) [] (mk ["e", "so", "long", "pat", "fx", "x"]).comps).2 = some [1, 2, 4, 3, 2, 1]
-- testIsAbsolute, testIsRelative, 402-416
#guard no (mk ["etc"]).isAbsolute && no (mk ["etc", "2", "file"]).isAbsolute
#guard yes (mk ["", "etc", "dir", "file"]).isAbsolute && yes (mk ["", "2", "f", ""]).isAbsolute
#guard yes (mk ["etc"]).isRelative && yes (mk ["1", "2", "f"]).isRelative && yes (mk ["1", "2", "f", ""]).isRelative
#guard no (mk ["", "1", "2", "f"]).isRelative
-- testNormalize, 419-441
#guard ((mk [""]).normalize heap vec).equals root
#guard [(["file"], ["file"]), ([".."], [".."]), (["1", ".", "2", "f"], ["1", "2", "f"]), (["1", "2", "..", "f"], ["1", "f"]),
  ([".", "1", "2", "..", "3", ".", "f", ".."], ["1", "3"]), (["..", "2", "fixt"], ["..", "2", "fixt"])].all
  fun (p, q) => ((mk p).normalize heap vec).equals (mk q)
-- testToString, 446-470
#guard text (mk [""]) = some (b "/") && text (mk [""]) "[:]" = some (b "[:]")
#guard text (mk ["filename"]) = some (b "filename") && text (mk ["filename"]) "[:]" = some (b "filename")
#guard text (mk ["3", "2", "1"]) = some (b "3/2/1") && text (mk ["3", "2", "1"]) "|:" = some (b "3|:2|:1")
#guard text (mk ["", "etc", "something", "1"]) = some (b "/etc/something/1")
#guard text (mk ["", "etc", "something", "1"]) "|:" = some (b "|:etc|:something|:1")
-- testParsing, 476-520
#guard [("some-long_path", ["some-long_path"]), ("/etc", ["", "etc"]), ("some/file/path.321", ["some", "file", "path.321"]),
  ("some/file/path.321/", ["some", "file", "path.321"]), ("some/file//path.321/", ["some", "file", "", "path.321"]),
  ("/!)/$@#&@#/some/file/path", ["", "!)", "$@#&@#", "some", "file", "path"])].all fun (s, p) => eqv (parse s) (mk p)
#guard eqv (parse "") root && eqv (parse "/") root
#guard eqv (parse "some.file.path" ".") (mk ["some", "file", "path"])
#guard eqv (parse "some.file..path" ".") (mk ["some", "file", "", "path"])
#guard eqv (parse "{?some{?file{?path{?" "{?") (mk ["", "some", "file", "path"])
#guard eqv (parse "{?some{?{?file{?path{?" "{?") (mk ["", "some", "", "file", "path"])
-- testParsing_and_ToString_are_consistent, 525-560
#guard ["some-long_path", "some/file/path.321", "/!)/$@#&@#/some/file/path"].all fun s => (parse s).bind text == some (b s)
#guard (parse "some/file/path.321/").bind text = some (b "some/file/path.321")
#guard ["some.file.path", "some.file..path"].all fun s => (parse s "\\.").bind (text · ".") == some (b s)
#guard (parse "{?some{?file{?path{?" "{?").bind (text · "{?") = some (b "{?some{?file{?path")

end Solace.Conformance.TestPath
