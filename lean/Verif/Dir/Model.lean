/-!
# Model of parsing directories and files with includes

`ParseContext::parseDirectoryOpts`, `ParseContext::parseFileWithIncludes` and the functions they use
(src/haxorg/api/ParseContext.cpp:293-556).  The file system, the callbacks of `OrgDirectoryParseParameters` and the
parser of a single file are arbitrary functions.  Nodes are finite trees: the `subnodes` field and the nodes held by
the other fields.  Two nodes are never the same object, so a callback of `getParsedNode` that returns an object it
has returned before is left out.
-/

namespace Verif.Dir

/-- The native form of `std::filesystem::path` -/
abbrev Path := List Char

/-- `std::filesystem::path::is_absolute`, used in src/haxorg/api/ParseContext.cpp:401 -/
def isAbsolute (p : Path) : Bool := p.head? == some '/'

/-- `operator/` of two paths, the right one relative, used in src/haxorg/api/ParseContext.cpp:402 -/
def join (w t : Path) : Path :=
  if isAbsolute t then t
  else if w.isEmpty || w.getLast? == some '/' then w ++ t
  else w ++ '/' :: t

/-- `std::filesystem::path::parent_path`, used in src/haxorg/api/ParseContext.cpp:361,425,502 -/
def parent (p : Path) : Path :=
  let q := ((p.reverse.dropWhile (· != '/')).dropWhile (· == '/')).reverse
  if q.isEmpty && isAbsolute p then ['/'] else q

/-- `std::filesystem::path::filename` -/
def filename (p : Path) : Path := (p.reverse.takeWhile (· != '/')).reverse

/-- `std::filesystem::path::extension`, used in src/haxorg/api/ParseContext.cpp:382: from the last dot of the file
name on, nothing for `.`, `..` and a file name whose only dot is the first character -/
def extension (p : Path) : Path :=
  let f := filename p
  if f == ['.'] || f == ['.', '.'] || !f.contains '.' then []
  else
    let e := '.' :: (f.reverse.takeWhile (· != '.')).reverse
    if e.length == f.length then [] else e

/-- `normalize` (src/hstd/stdlib/strutils.cpp:210-222) for ASCII text -/
def normalize (s : List Char) : List Char :=
  s.filterMap fun c =>
    if c == '_' || c == '-' then none
    else if c.isLower || c.isDigit then some c
    else if c.isUpper then some c.toLower
    else none

/-- `normalize(path.extension().native()) == "org"` (src/haxorg/api/ParseContext.cpp:382) -/
def isOrg (p : Path) : Bool := normalize (extension p) == ['o', 'r', 'g']

/-- `CmdInclude::Kind` (src/haxorg/sem/SemOrgTypes.hpp:1187) -/
inductive IncKind where
  | example | export | custom | src | orgDocument
deriving DecidableEq, Repr

/-- What a node is, as far as this code looks at it: `sem::File`, `sem::Directory`, `sem::Symlink`,
`sem::CmdInclude`, `sem::Link` with the target of an `Attachment` or `File` link, `sem::ErrorItem` with an
`IncludeError`, and any other node -/
inductive Info where
  | file (rel abs : Path)
  | dir (rel abs : Path)
  | symlink (isDir : Bool) (abs : Path)
  | incl (path : Path) (kind : IncKind)
  | link (target : Option Path)
  | error (workingFile : Path)
  | other (n : Nat)
deriving DecidableEq, Repr

/-- A node: what it is, `subnodes`, and the nodes in its other fields -/
inductive Node where
  | mk (info : Info) (subs fields : List Node)

namespace Node
/-- what the node is -/
def info : Node → Info | mk i _ _ => i
/-- `subnodes` -/
def subs : Node → List Node | mk _ s _ => s
/-- the nodes in the other fields -/
def fields : Node → List Node | mk _ _ f => f
/-- `push_back` (src/haxorg/sem/SemOrgBase.hpp:218) -/
def push : Node → Node → Node | mk i s f, n => mk i (s ++ [n]) f
end Node

/-- The file system and the callbacks of `OrgDirectoryParseParameters` (src/haxorg/api/ParseContext.hpp:68-96).
`parse` is `getParsedNode` or `ParseContext::parseFile` (src/haxorg/api/ParseContext.cpp:319-320): it throws
(`none`), returns a nil node (`some none`) or a node. -/
structure FS where
  isDir : Path → Bool
  isLink : Path → Bool
  isFile : Path → Bool
  resolve : Path → Path
  entries : Path → List Path
  should : Path → Bool
  parse : Path → Option (Option Node)
  findInclude : Path → Option Path
  pathExists : Path → Bool
  relative : Path → Path → Path
  absolute : Path → Path

/-- How a run can end without a value: an assertion of the code fails, an exception of the parser of one file, or
the bound on the recursion depth is reached -/
inductive Err where
  | assertion | thrown | fuel
deriving DecidableEq, Repr

/-- `DirectoryParseState` (src/haxorg/api/ParseContext.cpp:296-298), and the calls of `parse` made so far, which
the callback `getParsedNode` sees -/
structure St where
  visited : List Path
  parsed : List Path
deriving DecidableEq, Repr

section
variable (fs : FS)

/-- `resolvePath` (src/haxorg/api/ParseContext.cpp:393-414) -/
def resolvePath (workdir target : Path) : Except Err (Option Path) :=
  if fs.isDir workdir then
    let full := if isAbsolute target then target else join workdir target
    let full := if !fs.pathExists full then (fs.findInclude target).getD full else full
    .ok (if fs.pathExists full then some full else none)
  else .error .assertion

/-- `postProcessFileLink` (src/haxorg/api/ParseContext.cpp:483-514) -/
def linkStep (file root : Path) (n : Node) (target : Option Path) : Except Err Node :=
  match target with
  | none => .ok n
  | some t =>
    match resolvePath fs (parent file) t with
    | .error e => .error e
    | .ok none => .ok n
    | .ok (some full) => .ok (n.push (.mk (.file (fs.relative full root) full) [] []))

mutual
/-- `parsePathAux` with `parseFileAux` (src/haxorg/api/ParseContext.cpp:308-391); the first argument bounds the
recursion. -/
def parsePath : Nat → Path → Path → St → Except Err (Option Node × St)
  | 0, _, _, _ => .error .fuel
  | n + 1, path, root, st =>
    if st.visited.contains path then .ok (none, st)
    else
      let st := { st with visited := path :: st.visited }
      if !fs.should path then .ok (none, st)
      else if fs.isLink path then
        let target := fs.resolve path
        if fs.isDir target then
          match parsePath n target target st with
          | .error e => .error e
          | .ok (r, st) => .ok (some (.mk (.symlink true target) r.toList []), st)
        else if fs.isFile target then
          match parsePath n target (parent target) st with
          | .error e => .error e
          | .ok (r, st) => .ok (some (.mk (.symlink false (parent target)) r.toList []), st)
        else .ok (none, st)
      else if fs.isDir path then
        match parseAll n (fs.entries path) root st with
        | .error e => .error e
        | .ok (r, st) => .ok (some (.mk (.dir (fs.relative path root) path) r []), st)
      else if fs.isFile path then
        if isOrg path then parseFile n path root st else .ok (none, st)
      else .ok (none, st)

/-- the loop over the entries of a directory (src/haxorg/api/ParseContext.cpp:375-378) -/
def parseAll : Nat → List Path → Path → St → Except Err (List Node × St)
  | 0, _, _, _ => .error .fuel
  | _ + 1, [], _, st => .ok ([], st)
  | n + 1, e :: es, root, st =>
    match parsePath n e root st with
    | .error e => .error e
    | .ok (r, st) =>
      match parseAll n es root st with
      | .error e => .error e
      | .ok (rs, st) => .ok (r.toList ++ rs, st)

/-- `parseFileAux` (src/haxorg/api/ParseContext.cpp:308-331) -/
def parseFile : Nat → Path → Path → St → Except Err (Option Node × St)
  | 0, _, _, _ => .error .fuel
  | n + 1, path, root, st =>
    if !fs.isFile path then .error .assertion
    else
      let st := { st with parsed := path :: st.parsed }
      match fs.parse path with
      | none => .error .thrown
      | some none => .ok (none, st)
      | some (some doc) =>
        match visit n path root doc st with
        | .error e => .error e
        | .ok (doc, st) => .ok (some (.mk (.file (fs.relative path root) path) [doc] []), st)

/-- the callback of `postProcessFileReferences` for an include, `postProcessInclude`
(src/haxorg/api/ParseContext.cpp:416-481).  The kinds `Src`, `Example` and `Export` end in the conversion of the
include node to a block node, which asserts the kind of the node (src/haxorg/sem/SemOrgBase.hpp:137-147), or before
that in an assertion about the first subnode. -/
def inclStep : Nat → Path → Path → Node → Path → IncKind → St → Except Err (Node × St)
  | 0, _, _, _, _, _, _ => .error .fuel
  | n + 1, file, root, nd, path, kind, st =>
    match resolvePath fs (parent file) path with
    | .error e => .error e
    | .ok none => .ok (nd.push (.mk (.error file) [] []), st)
    | .ok (some full) =>
      match kind with
      | .orgDocument =>
        match parsePath n full root st with
        | .error e => .error e
        | .ok (none, st) => .ok (nd, st)
        | .ok (some t, st) => .ok (nd.push t, st)
      | .custom => .ok (nd, st)
      | _ => .error .assertion

/-- `postProcessFileReferences` (src/haxorg/api/ParseContext.cpp:516-530) with `eachSubnodeRec`
(src/haxorg/api/SemBaseApi.cpp:144-210): the callback sees the node before its fields are visited, and the nodes
it adds are visited too. -/
def visit : Nat → Path → Path → Node → St → Except Err (Node × St)
  | 0, _, _, _, _ => .error .fuel
  | n + 1, file, root, nd, st =>
    let r : Except Err (Node × St) :=
      match nd.info with
      | .incl path kind => inclStep n file root nd path kind st
      | .link target =>
        match linkStep fs file root nd target with
        | .error e => .error e
        | .ok nd => .ok (nd, st)
      | _ => .ok (nd, st)
    match r with
    | .error e => .error e
    | .ok (nd, st) =>
      match visitAll n file root nd.subs st with
      | .error e => .error e
      | .ok (subs, st) =>
        match visitAll n file root nd.fields st with
        | .error e => .error e
        | .ok (fields, st) => .ok (.mk nd.info subs fields, st)

/-- the visit of a vector of nodes (src/haxorg/api/SemBaseApi.cpp:163-166) -/
def visitAll : Nat → Path → Path → List Node → St → Except Err (List Node × St)
  | 0, _, _, _, _ => .error .fuel
  | _ + 1, _, _, [], st => .ok ([], st)
  | n + 1, file, root, x :: xs, st =>
    match visit n file root x st with
    | .error e => .error e
    | .ok (y, st) =>
      match visitAll n file root xs st with
      | .error e => .error e
      | .ok (ys, st) => .ok (y :: ys, st)
end

/-- `ParseContext::parseDirectoryOpts` (src/haxorg/api/ParseContext.cpp:534-540), with the calls of `parse` -/
def parseDirectory (n : Nat) (root : Path) : Except Err (Option Node × St) :=
  parsePath fs n (fs.absolute root) root ⟨[], []⟩

/-- `ParseContext::parseFileWithIncludes` (src/haxorg/api/ParseContext.cpp:546-556); for a nil node an empty
`File` is returned. -/
def parseFileWithIncludes (n : Nat) (file : Path) : Except Err (Node × St) :=
  match parseFile fs n file (parent file) ⟨[], []⟩ with
  | .error e => .error e
  | .ok (some t, st) => .ok (t, st)
  | .ok (none, st) => .ok (.mk (.file [] []) [] [], st)

end

end Verif.Dir
