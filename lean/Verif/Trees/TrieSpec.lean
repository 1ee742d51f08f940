import Verif.Trees.Trie
import Mathlib.Data.List.Dedup
import Mathlib.Data.List.Infix

/-!
# Specification of the tries

The abstract state is the list of the words held.  The definitions here do not use nodes.
-/

namespace Extra

/-- some word held starts with `p`, or `p` is empty -/
def reaches (S : List Word) (p : Word) : Bool := decide (p = []) || S.any (fun w => p.isPrefixOf w)

/-- reading `w` fails at its `i`-th character: the part before it can be read, and the character is
a `}` that cannot -/
def braceAt (S : List Word) (w : Word) (i : Nat) : Bool :=
  decide (w[i]? = some '}') && reaches S (w.take i) && !reaches S (w.take (i + 1))

/-- reading `w` meets an unexpected `}` -/
def braceIn (S : List Word) (w : Word) : Bool := (List.range w.length).any (braceAt S w)

/-- … as the last character of `w` -/
def braceLast (S : List Word) (w : Word) : Bool :=
  (List.range w.length).any (fun i => braceAt S w i && decide (i + 1 = w.length))

/-- the distinct non-empty prefixes of the words -/
def prefixesOf (S : List Word) : List Word :=
  (S.flatMap (fun w => w.inits)).dedup.filter (fun p => decide (p ≠ []))

/-- what each call should do on a `Trie` that holds the words `S` -/
def trSpec (S : List Word) : TrOp → Except Err TrRes × List Word
  | .insert .none => (.error .valueError, S)
  | .insert .other => (.error .typeError, S)
  | .insert (.str w) =>
    if blank w then (.error .valueError, S)
    else if braceIn S w then (.error .attributeError, S)
    else (.ok .unit, if w ∈ S then S else S ++ [w])
  | .remove .none => (.ok .warned, S)
  | .remove .other => (.ok .warned, S)
  | .remove (.str w) =>
    if braceIn S w then (.error .attributeError, S)
    else if S = [w] then (.error .attributeError, [])
    else (.ok .unit, S.erase w)
  | .contains .none => (.ok (.bool false), S)
  | .contains .other => (.ok (.bool false), S)
  | .contains (.str w) =>
    (if braceIn S w then .error .attributeError else .ok (.bool (decide (w ∈ S))), S)
  | .hasPrefix .none => (.ok (.bool false), S)
  | .hasPrefix .other => (.ok (.bool false), S)
  | .hasPrefix (.str w) =>
    (if braceLast S w then .ok (.bool true)
     else if braceIn S w then .error .attributeError
     else .ok (.bool (reaches S w)), S)
  | .len => (.ok (.int (1 + (prefixesOf S).length)), S)
  | .isEmpty => (.ok (.bool (decide (S = []))), S)
  | .clear => (.ok .unit, [])

/-- a history of calls -/
def trSpecs : List TrOp → List Word → List (Except Err TrRes) × List Word
  | [], S => ([], S)
  | op :: ops, S =>
    match trSpec S op with
    | (r, S') => match trSpecs ops S' with
      | (rs, S'') => (r :: rs, S'')

end Extra
