import Verif.Bimap.Model

/-!
# Model of the cache of the sources of reports – src/hstd/ext/error_write.{hpp,cpp}

Simplifications: a source is its text; identifiers are natural numbers; the hash of a path is any function.
-/

namespace Verif.Cache

/-- `StrCache` – error_write.hpp:143-149.  The map of sources is a function, the names are a map in both directions. -/
structure Cache where
  sources : Nat → Option String
  names : List (Nat × String)

/-- An empty cache. -/
def Cache.empty : Cache := ⟨fun _ => none, []⟩

/-- `fetch` – error_write.hpp:156.  `none`: an exception. -/
def Cache.fetch (c : Cache) (id : Nat) : Option String := c.sources id

/-- `display` – error_write.hpp:158-160 -/
def Cache.display (c : Cache) (id : Nat) : Option String := Bimap.getRight c.names id

/-- `add` – error_write.cpp:1390-1404: the cache afterwards, and whether the call returned. -/
def Cache.add (c : Cache) (id : Nat) (source name : String) : Cache × Bool :=
  match Bimap.getRight c.names id with
  | some known => if known = name then (c, true) else (c, false)
  | none =>
    let c := { c with sources := fun x => if x = id then some source else c.sources x }
    match Bimap.addUnique .one c.names id name with
    | some names => ({ c with names := names }, true)
    | none => (c, false)

/-- `add_path` – error_write.cpp:1406-1410: the cache afterwards, and the identifier if the call returned.  `read` is
`getFileSource`. -/
def Cache.addPath (hash : String → Nat) (read : String → String) (c : Cache) (path : String) : Cache × Option Nat :=
  let id := hash path
  match Bimap.getRight c.names id with
  | some _ => (c, some id)
  | none => match c.add id (read path) path with
    | (c, true) => (c, some id)
    | (c, false) => (c, none)

end Verif.Cache
