import Mathlib.Data.List.Basic
/-!
# cdict objects on a heap: core.py 20-29

`cdict` attributes are Python references. A value is an immutable datum (array, number, string: JAX arrays cannot be
changed in place) or a reference to a cdict. An object is its `__dict__`, in insertion order.
-/
namespace Mocat.Objects


inductive HVal (A : Type) where
  | atom (a : A)
  | ref (r : ℕ)

variable {A : Type}

abbrev Obj (A : Type) := List (String × HVal A)

/-- Objects by reference; references from `next` on are free. -/
structure Heap (A : Type) where
  obj : ℕ → Option (Obj A)
  next : ℕ

/-- `d[k] = v` -/
def Obj.set : Obj A → String → HVal A → Obj A
  | [], k, v => [(k, v)]
  | (k', v') :: o, k, v => if k = k' then (k, v) :: o else (k', v') :: Obj.set o k v

/-- `del d[k]` -/
def Obj.del (o : Obj A) (k : String) : Obj A := o.filter fun p => p.1 ≠ k

/-- replace the object at `r` -/
def Heap.put (h : Heap A) (r : ℕ) (o : Obj A) : Heap A :=
  { h with obj := fun r' => if r' = r then some o else h.obj r' }

/-- a new object -/
def Heap.alloc (h : Heap A) (o : Obj A) : Heap A :=
  { obj := fun r' => if r' = h.next then some o else h.obj r', next := h.next + 1 }

/-- `r.k = v` -/
def assign (h : Heap A) (r : ℕ) (k : String) (v : HVal A) : Heap A :=
  match h.obj r with
  | none => h
  | some o => h.put r (Obj.set o k v)

/-- `del r.k` -/
def delete (h : Heap A) (r : ℕ) (k : String) : Heap A :=
  match h.obj r with
  | none => h
  | some o => h.put r (Obj.del o k)

/-- core.py 22-26: `r.copy()` = `cdict(**r.__dict__)`: a new object with the same bindings. The new reference is
the old `next`. -/
def copy (h : Heap A) (r : ℕ) : Heap A := h.alloc ((h.obj r).getD [])

/-- `r.k` -/
def attr (h : Heap A) (r : ℕ) (k : String) : Option (HVal A) := (h.obj r).bind (List.lookup k)

/-- `r.k₁.k₂...` -/
def readPath (h : Heap A) (v : HVal A) : List String → Option (HVal A)
  | [] => some v
  | k :: ks =>
    match v with
    | .atom _ => none
    | .ref r => match attr h r k with
      | none => none
      | some w => readPath h w ks

/-- Copy the values of an attribute list with `f`, left to right. -/
def mapFields (f : Heap A → (ℕ → Option ℕ) → HVal A → Option (Heap A × (ℕ → Option ℕ) × HVal A)) :
    Heap A → (ℕ → Option ℕ) → Obj A → Option (Heap A × (ℕ → Option ℕ) × Obj A)
  | h, m, [] => some (h, m, [])
  | h, m, (k, v) :: o =>
    match f h m v with
    | none => none
    | some (h1, m1, v') =>
      match mapFields f h1 m1 o with
      | none => none
      | some (h2, m2, o') => some (h2, m2, (k, v') :: o')

/-- core.py 28-29, `copy.deepcopy`: an object already in the memo gives its copy; else a new empty object is made and
entered in the memo, the attribute dictionary is deep-copied, and the new object gets it. The first argument
bounds the recursion depth (`none` when it is exhausted, or for a dangling reference). -/
def deepcopy : ℕ → Heap A → (ℕ → Option ℕ) → HVal A → Option (Heap A × (ℕ → Option ℕ) × HVal A)
  | 0, _, _, _ => none
  | _ + 1, h, m, .atom a => some (h, m, .atom a)
  | n + 1, h, m, .ref r =>
    match m r with
    | some r' => some (h, m, .ref r')
    | none =>
      match h.obj r with
      | none => none
      | some o =>
        match mapFields (deepcopy n) (h.alloc []) (fun s => if s = r then some h.next else m s) o with
        | none => none
        | some (h2, m2, o') => some (h2.put h.next o', m2, .ref h.next)

/-- Things done through handles; handle `i` is the `i`-th cdict obtained (handle 0 is the one given). -/
inductive Cmd (A : Type) where
  | assign (i : ℕ) (k : String) (v : HVal A)
  | delete (i : ℕ) (k : String)
  | copy (i : ℕ)

/-- One command: heap and handles. -/
def step (c : Heap A × List ℕ) : Cmd A → Heap A × List ℕ
  | .assign i k v => match c.2[i]? with
    | none => c
    | some r => (assign c.1 r k v, c.2)
  | .delete i k => match c.2[i]? with
    | none => c
    | some r => (delete c.1 r k, c.2)
  | .copy i => match c.2[i]? with
    | none => c
    | some r => (copy c.1 r, c.2 ++ [c.1.next])

/-- A program working through handles. -/
def exec (c : Heap A × List ℕ) (p : List (Cmd A)) : Heap A × List ℕ := p.foldl step c

end Mocat.Objects
