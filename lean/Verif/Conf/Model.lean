import Verif.Basic

/-!
# ConfParser: `Configuration`

Strings are lists of characters.  A configuration is the list of its entries with distinct keys; the
iteration order of `std::map` is not fixed, so the theorems hold for any order.
Boost's property tree and its JSON reader/writer are modelled from their documentation:
`put` splits the key at dots, `write_json` refuses trees it cannot represent, and `read_json`
returns the tree that was written.
-/

namespace PI

/-- `std::string`. -/
abbrev Str := List Char

/-- `Configuration::params` (ConfParser.hpp:265): entries with distinct keys. -/
abbrev Config := List (Str × Str)

namespace Config

/-- `params.find` (ConfParser.hpp:256-262), `count` (160). -/
def find? : Config → Str → Option Str
  | [], _ => none
  | (k', v) :: c, k => if k' = k then some v else find? c k

/-- `cfg[key] << value` / `cfg[key] = value` (ConfParser.hpp:47-63,177-179,190): overwrite or insert. -/
def set : Config → Str → Str → Config
  | [], k, v => [(k, v)]
  | (k', v') :: c, k, v => if k' = k then (k', v) :: c else (k', v') :: set c k v

/-- `cfg[key]` through a non-const reference without assignment (ConfParser.hpp:190): inserts an empty
value when the key is missing. -/
def touch (c : Config) (k : Str) : Config := match c.find? k with
  | some _ => c
  | none => c.set k []

/-- `cfg[key]` through a const reference (ConfParser.hpp:200): `map::at`. -/
def getConst (c : Config) (k : Str) : Out Str := match c.find? k with
  | some v => .ok v
  | none => .throw

/-- `operator+=` (ConfParser.hpp:176-181). -/
def append (a b : Config) : Config := b.foldl (fun c p => c.set p.1 p.2) a

/-- `operator==` (ConfParser.hpp:208): equal as maps. -/
def eqMap (a b : Config) : Prop := ∀ k, a.find? k = b.find? k

/-- The type invariant of `std::map`: keys are distinct. -/
def WF (c : Config) : Prop := (c.map Prod.fst).Nodup

end Config

/-! ## Property trees -/

/-- `boost::property_tree::ptree`: data and ordered, keyed children. -/
inductive PTree where
  | node (data : Str) (children : List (Str × PTree))

/-- Data of a node. -/
def PTree.data : PTree → Str
  | .node d _ => d

/-- Children of a node. -/
def PTree.children : PTree → List (Str × PTree)
  | .node _ c => c

/-- `string_path::reduce` on a path of which `acc` (reversed) was already read into the current
component: the component ends at the next dot; after a dot at the very end the path is exhausted. -/
def splitFrom (acc : Str) : Str → List Str
  | [] => [acc.reverse]
  | c :: cs =>
    if c = '.' then acc.reverse :: (if cs = [] then [] else splitFrom [] cs)
    else splitFrom (c :: acc) cs

/-- The components of a dotted path (`string_path::reduce` until empty); the empty path has none. -/
def splitDots (s : Str) : List Str := if s = [] then [] else splitFrom [] s

/-- Replace the subtree at the first child with this key, or append a new child. -/
def updChild (k : Str) (f : PTree → PTree) : List (Str × PTree) → List (Str × PTree)
  | [] => [(k, f (.node [] []))]
  | (k', t) :: cs => if k' = k then (k', f t) :: cs else (k', t) :: updChild k f cs

/-- `ptree::put(path, value)`: walk the path, creating missing nodes, and set the data of the last. -/
def PTree.put (v : Str) : List Str → PTree → PTree
  | [], .node _ c => .node v c
  | k :: ks, .node d c => .node d (updChild k (PTree.put v ks) c)

mutual
/-- Below the root a node must not have both data and children (`verify_json`). -/
def PTree.okInner : PTree → Bool
  | .node d c => (d.isEmpty || c.isEmpty) && okChildren c
/-- See `okInner`. -/
def okChildren : List (Str × PTree) → Bool
  | [] => true
  | (_, t) :: cs => t.okInner && okChildren cs
end

/-- `write_json` (boost `verify_json`): the root must not have data, inner nodes must not have both
data and children; otherwise it throws.  The text written denotes the tree. -/
def writeJson (t : PTree) : Out PTree :=
  if t.data.isEmpty && okChildren t.children then .ok t else .throw

/-- `Configuration::save_to_json` (ConfParser.cpp:37-48). -/
def saveToJson (c : Config) : Out PTree :=
  writeJson (c.foldl (fun t p => t.put p.2 (splitDots p.1)) (.node [] []))

/-- `Configuration::load_from_json` (ConfParser.cpp:25-35): each top-level child overwrites the entry
of that name with the child's data. -/
def loadFromJson (c : Config) (t : PTree) : Config :=
  t.children.foldl (fun c p => c.set p.1 p.2.data) c

end PI
