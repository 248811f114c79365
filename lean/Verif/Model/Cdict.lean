import Mathlib.Data.List.Basic
import Mathlib.Algebra.Group.Defs
/-!
# cdict: core.py 20-88

Arrays are tensors with entries in `α`: a 0-d array is `leaf`, an array with `ndim > 0` is the list of its
rows together with the shape every row has. Dictionaries are lists in insertion order.
-/
namespace Mocat.Cdict

inductive Tensor (α : Type) where
  | leaf (x : α)
  | node (trailing : List ℕ) (rows : List (Tensor α))

variable {α S : Type}

/-- `t.shape` -/
def Tensor.shape : Tensor α → List ℕ
  | .leaf _ => []
  | .node tr rows => rows.length :: tr

/-- `t.ndim > 0` -/
def Tensor.ndimPos : Tensor α → Bool
  | .leaf _ => false
  | .node _ _ => true

/-- `jnp.atleast_1d(t)` -/
def Tensor.atleast1d : Tensor α → Tensor α
  | .leaf x => .node [] [.leaf x]
  | .node tr rows => .node tr rows

/-- `t[jnp.newaxis]` -/
def Tensor.newaxis (t : Tensor α) : Tensor α := .node t.shape [t]

mutual
/-- A Python value as attribute of a cdict: an array, a Python number, a cdict (static or not), or any other object. -/
inductive Val (α S : Type) where
  | arr (t : Tensor α)
  | num (x : α)
  | cd (static : Bool) (d : Dict α S)
  | obj (s : S)

/-- `__dict__`, in insertion order -/
inductive Dict (α S : Type) where
  | nil
  | cons (k : String) (v : Val α S) (d : Dict α S)
end

/-- `d.keys()` -/
def Dict.keys : Dict α S → List String
  | .nil => []
  | .cons k _ d => k :: d.keys

/-- the values in order -/
def Dict.vals : Dict α S → List (Val α S)
  | .nil => []
  | .cons _ v d => v :: d.vals

/-- `d.get(k)` -/
def Dict.get : Dict α S → String → Option (Val α S)
  | .nil, _ => none
  | .cons k v d, k' => if k' = k then some v else d.get k'

/-- Names every `cdict` has through its class (core.py 20-84); double underscore names left out. -/
def classAttrs : List String :=
  ["copy", "deepcopy", "save", "tree_flatten", "tree_unflatten", "is_empty", "keys"]

inductive Err
  | keyError
  | typeError
  | shapeError
  deriving DecidableEq

/-! ## `__getitem__` -/

/-- core.py 48-49: string index -/
def getStr (d : Dict α S) (k : String) : Except Err (Val α S) :=
  match d.get k with
  | some v => .ok v
  | none => .error .keyError

mutual
/-- core.py 52-55, the effect on one attribute; `ix` is the index as a function on arrays of `ndim > 0`.
(Simplification: the index is total, as JAX clamps out of bounds.) -/
def getVal (ix : Tensor α → Tensor α) : Val α S → Val α S
  | .arr (.leaf x) => .arr (.leaf x)
  | .arr (.node tr rows) => .arr (ix (.node tr rows))
  | .num x => .num x
  | .cd true d => .cd true d
  | .cd false d => .cd false (getItem ix d)
  | .obj s => .obj s

/-- core.py 51-56, non-string index. (`copy` makes the result a new plain cdict.) -/
def getItem (ix : Tensor α → Tensor α) : Dict α S → Dict α S
  | .nil => .nil
  | .cons k v d => .cons k (getVal ix v) (getItem ix d)
end

/-! ## `__add__` -/

/-- `jnp.append(a, b, axis=0)` for arrays with `ndim > 0` -/
def append : Tensor α → Tensor α → Except Err (Tensor α)
  | .node tr r, .node tr' r' => if tr = tr' then .ok (.node tr (r ++ r')) else .error .shapeError
  | _, _ => .error .shapeError

/-- `jnp.atleast_1d(v)` of a Python value -/
def toArr : Val α S → Except Err (Tensor α)
  | .arr t => .ok t.atleast1d
  | .num x => .ok (Tensor.leaf x).atleast1d
  | .cd _ _ => .error .typeError
  | .obj _ => .error .typeError

/-- core.py 66-68: append of two attributes at least one of which is an array -/
def appendVal (a b : Val α S) : Except Err (Val α S) :=
  match toArr a, toArr b with
  | .ok x, .ok y => (append x y).map .arr
  | .error e, _ => .error e
  | _, .error e => .error e

mutual
/-- core.py 64-72: the new value of attribute `key`, present in both operands. The tests come in the order of the code:
an array on either side; then two plain cdicts, or the key `time`. For `time` Python's `+` is used: numbers add,
cdicts (static or not) add, anything else is treated as an error. -/
def addVal [Add α] (key : String) : Val α S → Val α S → Except Err (Val α S)
  | .arr x, b => appendVal (.arr x) b
  | .num x, .arr y => appendVal (.num x) (.arr y)
  | .num x, .num y => if key = "time" then .ok (.num (x + y)) else .ok (.num x)
  | .num x, .cd _ _ => if key = "time" then .error .typeError else .ok (.num x)
  | .num x, .obj _ => if key = "time" then .error .typeError else .ok (.num x)
  | .cd s d, .arr y => appendVal (.cd s d) (.arr y)
  | .cd s d, .cd s' d' =>
    if (s = false ∧ s' = false) ∨ key = "time" then (addDict d d').map (.cd false) else .ok (.cd s d)
  | .cd s d, .num _ => if key = "time" then .error .typeError else .ok (.cd s d)
  | .cd s d, .obj _ => if key = "time" then .error .typeError else .ok (.cd s d)
  | .obj s, .arr y => appendVal (.obj s) (.arr y)
  | .obj s, _ => if key = "time" then .error .typeError else .ok (.obj s)

/-- core.py 60-73, `a + b` for cdicts. A key that `b` has only through its class passes the `hasattr` test
and then raises `KeyError` at line 65. -/
def addDict [Add α] : Dict α S → Dict α S → Except Err (Dict α S)
  | .nil, _ => .ok .nil
  | .cons k v d, e =>
    let v' := match e.get k with
      | some w => addVal k v w
      | none => if k ∈ classAttrs then .error .keyError else .ok v
    match v', addDict d e with
    | .ok v', .ok d' => .ok (.cons k v' d')
    | .error x, _ => .error x
    | _, .error x => .error x
end

/-- core.py 58-62: `a + None` is a copy -/
def add [Add α] (a : Dict α S) : Option (Dict α S) → Except Err (Dict α S)
  | none => .ok a
  | some b => addDict a b

/-! ## pytree flattening -/

/-- core.py 39-40: `(values, keys)` -/
def treeFlatten (d : Dict α S) : List (Val α S) × List String := (d.vals, d.keys)

/-- core.py 42-44: `cls(**dict(zip(keys, xs)))` (keys are distinct) -/
def treeUnflatten : List String → List (Val α S) → Dict α S
  | k :: ks, x :: xs => .cons k x (treeUnflatten ks xs)
  | _, _ => .nil

mutual
/-- Structure of a value as a JAX pytree: `static_cdict` is not registered (only `cdict` is decorated, core.py 20, 87), so it
is a leaf, as is everything that is not a cdict. (`None`, which JAX treats as an empty node, is not distinguished.) -/
inductive TreeDef where
  | leaf
  | node (d : TreeDefs)

inductive TreeDefs where
  | nil
  | cons (k : String) (t : TreeDef) (d : TreeDefs)
end

mutual
/-- `jax.tree_util.tree_flatten`: leaves in order -/
def leaves : Val α S → List (Val α S)
  | .cd false d => dleaves d
  | v => [v]
def dleaves : Dict α S → List (Val α S)
  | .nil => []
  | .cons _ v d => leaves v ++ dleaves d
end

mutual
def treedef : Val α S → TreeDef
  | .cd false d => .node (dtreedef d)
  | _ => .leaf
def dtreedef : Dict α S → TreeDefs
  | .nil => .nil
  | .cons k v d => .cons k (treedef v) (dtreedef d)
end

mutual
/-- `jax.tree_util.tree_unflatten`: rebuild from a structure and leaves, returning the leaves left over. -/
def unflatten : TreeDef → List (Val α S) → Option (Val α S × List (Val α S))
  | .leaf, [] => none
  | .leaf, x :: xs => some (x, xs)
  | .node d, xs => (dunflatten d xs).map fun p => (.cd false p.1, p.2)
def dunflatten : TreeDefs → List (Val α S) → Option (Dict α S × List (Val α S))
  | .nil, xs => some (.nil, xs)
  | .cons k t d, xs =>
    match unflatten t xs with
    | none => none
    | some (v, ys) => (dunflatten d ys).map fun p => (.cons k v p.1, p.2)
end

/-- `jax.tree_util.tree_map(f, v)` -/
def treeMap (f : Val α S → Val α S) (v : Val α S) : Option (Val α S) :=
  (unflatten (treedef v) ((leaves v).map f)).map Prod.fst

end Mocat.Cdict
