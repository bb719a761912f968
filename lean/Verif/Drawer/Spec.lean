import Verif.Drawer.Model

/-!
# Specification of property drawers
-/

namespace Verif.Drawer

open Verif.BaseLexer (isAlnum toLower normalize isDigit)

/-- Letters, digits, `_` and `-`. -/
def Ident (w : Text) : Prop := w ≠ [] ∧ ∀ c ∈ w, isAlnum c ∨ c = '_' ∨ c = '-'

/-- Names, in lower case, that do not start a literal property line: ends of drawers, and properties
whose value is not taken literally. -/
def specialNames : List Text :=
  ["end", "properties", "logbook", "header-args", "header_args", "prop_args", "prop-args",
   "description", "created", "hashtag_def", "hashtag-def", "hashtag"].map String.toList

def Special (w : Text) : Prop := w.map toLower ∈ specialNames

/-- The name of a property: one word, or a word and a second part after a colon. -/
inductive IsName : Text → Prop
  | one {w} : Ident w → ¬ Special w → IsName w
  | two {w s} : Ident w → ¬ Special w → Ident s → IsName (w ++ ':' :: s)

/-- A text of one line that neither begins nor ends with a space. -/
def Trimmed (v : Text) : Prop := '\n' ∉ v ∧ v.head? ≠ some ' ' ∧ v.getLast? ≠ some ' '

/-- Names, without `_`, `-` and case, with a meaning of their own. -/
def builtinNames : List Text :=
  ["exportoptions", "id", "customid", "radioid", "hashtagdef", "created", "visibility", "cookiedata",
   "effort", "archivefile", "archivetime", "archivecategory", "archivetodo", "archive",
   "archiveolpath"].map String.toList

/-- A name without a meaning of its own. -/
def Unknown (name : Text) : Prop :=
  normalize name ∉ builtinNames ∧ ¬ "propjson".toList <+: normalize name ∧
    ¬ "propargs".toList <+: normalize name

/-- Elements of a path: no separator, no surrounding spaces, not a star in front of the first. -/
def IsPath (path : List Text) : Prop :=
  path ≠ [] ∧ (∀ e ∈ path, '/' ∉ e ∧ Trimmed e) ∧ ∀ e, path.head? = some e → e.head? ≠ some '*'

/-- A value of `int`. -/
def IsInt (n : Int) : Prop := -2147483648 ≤ n ∧ n ≤ 2147483647

/-- The properties that survive being written and read. -/
inductive Kept {T : Type} (lib : Lib T) : NamedProp T → Prop
  | customId {v} : Trimmed v → Kept lib (.customId v)
  | archiveFile {v} : Trimmed v → Kept lib (.archiveFile v)
  | archiveCategory {v} : Trimmed v → Kept lib (.archiveCategory v)
  | archiveTodo {v} : Trimmed v → Kept lib (.archiveTodo v)
  | visibility (l) : Kept lib (.visibility l)
  | effort {h m} : IsInt h → IsInt m → Kept lib (.effort h m)
  | radioId {words} : (∀ w ∈ words, ' ' ∉ w ∧ '\n' ∉ w) → words.head? ≠ some [] →
      words.getLast? ≠ some [] → Kept lib (.radioId words)
  | archiveOlpath {path} : IsPath path → Kept lib (.archiveOlpath path)
  | archiveTarget {pattern path} : '\n' ∉ pattern → pattern.head? ≠ some ' ' →
      ¬ "::".toList <:+: pattern → pattern.getLast? ≠ some ':' →
      path ≠ [] → (∀ e ∈ path, '/' ∉ e) → Trimmed (join ['/'] path) → (join ['/'] path).head? ≠ some '*' →
      ¬ "::".toList <:+: join ['/'] path → Kept lib (.archiveTarget pattern path)
  | customRaw {name v} : IsName name → Unknown name → Trimmed v → Kept lib (.customRaw name v)
  | customJson {name v} : Ident name → normalize name = name → Trimmed (Json.dump v) →
      lib.readJson (Json.dump v) = some v → Kept lib (.customJson name v)

/-- The words for the levels of visibility. -/
def levelWord : Level → Text
  | .Folded => "folded".toList
  | .Children => "children".toList
  | .Content => "content".toList
  | .All => "all".toList

/-- The properties no text is ever read as. -/
inductive Lost {T : Type} : NamedProp T → Prop
  | nonblocking (b) : Lost (.nonblocking b)
  | trigger : Lost .trigger
  | latexClass (c) : Lost (.latexClass c)
  | latexClassOptions (o) : Lost (.latexClassOptions o)
  | latexHeader (h) : Lost (.latexHeader h)
  | latexCompiler (c) : Lost (.latexCompiler c)
  | ordered (b) : Lost (.ordered b)
  | exportOptions (b v) : Lost (.exportOptions b v)
  | blocker (b) : Lost (.blocker b)
  | unnumbered : Lost .unnumbered

/-- C115: the properties of a headline, written and read, are the properties it had. -/
def DrawerStatement : Prop :=
  ∀ (T : Type) (lib : Lib T) (treeId : Option Text) (ps : List (NamedProp T)),
    (treeId, ps) ≠ (none, []) →
    readBody lib (writeBody lib treeId ps) = .ok { treeId := treeId, properties := ps }

/-- C116: properties read from a text, written and read again, are the same. -/
def RewriteStatement : Prop :=
  ∀ (T : Type) (lib : Lib T) (body : Text) (t : Tree T), readBody lib body = .ok t → t.diagnostics = 0 →
    (t.treeId, t.properties) ≠ (none, []) →
    readBody lib (writeBody lib t.treeId t.properties) = .ok t

/-- Names whose value is taken as it is, and what they set. -/
def plainMeaning (T : Type) : List (Text × (Text → Read T)) :=
  [("id".toList, .treeId), ("customid".toList, fun v => .prop (.customId v)),
   ("archivefile".toList, fun v => .prop (.archiveFile v)),
   ("archivecategory".toList, fun v => .prop (.archiveCategory v)),
   ("archivetodo".toList, fun v => .prop (.archiveTodo v))]

/-- The line of a name and a value surrounded by spaces. -/
def lineFor (name : Text) (before : Nat) (value : Text) (after : Nat) : Text :=
  ':' :: name ++ ':' :: (List.replicate (before + 1) ' ' ++ value ++ List.replicate after ' ')

/-- The last id. -/
def lastId {T : Type} : List (Read T) → Option Text
  | [] => none
  | .treeId v :: r => (lastId r).or (some v)
  | _ :: r => lastId r

/-- The properties in order. -/
def allProps {T : Type} : List (Read T) → List (NamedProp T)
  | [] => []
  | .prop p :: r => p :: allProps r
  | _ :: r => allProps r

/-- The number of diagnostics. -/
def allDiagnostics {T : Type} : List (Read T) → Nat
  | [] => 0
  | .diagnostic :: r => allDiagnostics r + 1
  | _ :: r => allDiagnostics r

end Verif.Drawer
