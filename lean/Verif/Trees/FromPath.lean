import Verif.Trees.Tree
import Verif.Lists.World
import Mathlib.Data.List.Sort
import Mathlib.Data.List.Lex
import Mathlib.Order.Defs.LinearOrder

/-!
# `Tree.from_path` — /repo/extra/trees/tree.py

The file system is a tree of files and folders: links, devices, mount points and permissions are not
modelled, nor are file names that are not text.  Paths are strings, and the functions of the module
`os.path` that the code calls are modelled on strings (POSIX).
-/

namespace Extra

/-- the name of a file or folder, or a path -/
abbrev FName := List Char

mutual
/-- a file or a folder with its entries -/
inductive FNode
  | file
  | dir (es : FEnts)
/-- the entries of a folder, in the order in which `os.listdir` gives them -/
inductive FEnts
  | nil
  | cons (name : FName) (f : FNode) (rest : FEnts)
end

/-- the entries as a list -/
def FEnts.toList : FEnts → List (FName × FNode)
  | .nil => []
  | .cons n f rest => (n, f) :: rest.toList

/-- the entry of that name -/
def FEnts.get (n : FName) : FEnts → Option FNode
  | .nil => none
  | .cons m f rest => if m = n then some f else rest.get n

/-- what is found when one goes down through folders of these names -/
def FNode.find : FNode → List FName → Option FNode
  | f, [] => some f
  | .file, _ :: _ => none
  | .dir es, n :: ns =>
    match es.get n with
    | none => none
    | some f => f.find ns

/-! ## Following a path -/

/-- `path.split("/")` -/
def splitSlash : List Char → List FName
  | [] => [[]]
  | c :: cs =>
    if c = '/' then [] :: splitSlash cs
    else
      match splitSlash cs with
      | [] => [[c]]
      | w :: ws => (c :: w) :: ws

/-- how the system follows a path: `here` are the names on the way from the root to where one is; only
from a folder can one go on -/
def FNode.walk (root : FNode) : List FName → List FName → Option (List FName)
  | here, [] => some here
  | here, c :: cs =>
    match root.find here with
    | some (.dir _) =>
      if c = [] ∨ c = ['.'] then root.walk here cs
      else if c = ['.', '.'] then root.walk here.dropLast cs
      else if (root.find (here ++ [c])).isSome then root.walk (here ++ [c]) cs
      else none
    | _ => none

/-- where a path leads from the working directory `cwd`, if there is something -/
def FNode.locate (root : FNode) (cwd : List FName) (path : FName) : Option (List FName) :=
  match path with
  | [] => none
  | c :: _ => root.walk (if c = '/' then [] else cwd) (splitSlash path)

/-! ## `os.path` -/

/-- `"/".join(names)` -/
def joinSlash : List FName → FName
  | [] => []
  | [n] => n
  | n :: m :: ns => n ++ '/' :: joinSlash (m :: ns)

/-- `os.getcwd()` -/
def getcwd (cwd : List FName) : FName := '/' :: joinSlash cwd

/-- `os.path.join(a, b)` -/
def pathJoin (a b : FName) : FName :=
  if b.head? = some '/' then b
  else if a = [] ∨ a.getLast? = some '/' then a ++ b
  else a ++ '/' :: b

/-- `os.path.split(p)`: the part after the last `/` and the part before it, without the slashes at its
end unless it has nothing else -/
def pathSplit (p : FName) : FName × FName :=
  let tail := (p.reverse.takeWhile (· ≠ '/')).reverse
  let head := (p.reverse.dropWhile (· ≠ '/')).reverse
  (if head.all (· = '/') then head else (head.reverse.dropWhile (· = '/')).reverse, tail)

/-- the slashes that `os.path.normpath` keeps at the front, and what comes after them: two are kept if
there are just two -/
def splitRoot : FName → FName × FName
  | '/' :: '/' :: '/' :: p => (['/'], '/' :: '/' :: p)
  | '/' :: '/' :: p => (['/', '/'], p)
  | '/' :: p => (['/'], p)
  | p => ([], p)

/-- the loop of `os.path.normpath`; `acc` are the parts kept so far -/
def normLoop (rooted : Bool) : List FName → List FName → List FName
  | acc, [] => acc
  | acc, c :: cs =>
    if c = [] ∨ c = ['.'] then normLoop rooted acc cs
    else if c ≠ ['.', '.'] ∨ (rooted = false ∧ acc = []) ∨ acc.getLast? = some ['.', '.'] then
      normLoop rooted (acc ++ [c]) cs
    else normLoop rooted acc.dropLast cs

/-- `os.path.normpath(p)` -/
def normPath (p : FName) : FName :=
  let (r, rest) := splitRoot p
  let q := r ++ joinSlash (normLoop (!r.isEmpty) [] (splitSlash rest))
  if q = [] then ['.'] else q

/-- `os.path.abspath(p)` -/
def absPath (cwd : List FName) (p : FName) : FName :=
  if p.head? = some '/' then normPath p else normPath (pathJoin (getcwd cwd) p)

/-! ## The code -/

/-- `__form_tree_from_path` — tree.py:356-364; newlines in names are escaped — tree.py:92-96; `fuel`
bounds the depth of the recursion -/
def formTree (root : FNode) (cwd : List FName) : Nat → FName → FName → Except Err (RTree FName)
  | 0, _, _ => .error .diverge
  | fuel + 1, parent, curr =>
    let abs := pathJoin parent curr
    match (root.locate cwd abs).bind root.find with
    | some (.dir es) => do
      let kids ← ((es.toList.map Prod.fst).insertionSort (· ≤ ·)).mapM (formTree root cwd fuel abs)
      .ok (.node (escapeNewlines curr) kids)
    | _ => .ok (.node (escapeNewlines curr) [])

mutual
/-- the number of levels, which bounds the recursion -/
def FNode.levels : FNode → Nat
  | .file => 1
  | .dir es => es.levels + 1
/-- the number of levels of the entries -/
def FEnts.levels : FEnts → Nat
  | .nil => 0
  | .cons _ f rest => max f.levels rest.levels
end

/-- an argument `path` -/
inductive PathArg
  | str (p : FName)
  | other
  deriving DecidableEq

/-- `from_path` — tree.py:403-411 -/
def fromPath (root : FNode) (cwd : List FName) : PathArg → Except Err (RTree FName)
  | .other => .error .typeError
  | .str p =>
    if (root.locate cwd p).isNone then .error .valueError
    else
      let (parent, folder) := pathSplit (absPath cwd p)
      formTree root cwd root.levels parent folder

end Extra
