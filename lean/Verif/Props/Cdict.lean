import Verif.Model.Cdict
/-!
# C02 - C05: flattening, indexing and adding cdicts
-/
namespace Mocat.Props
open Mocat.Cdict

variable {α S : Type}

/-! ## Specification vocabulary -/

/-- The attribute reached by a dotted path `c.k₁.k₂...kₙ` (through plain cdicts). -/
def at' : Dict α S → List String → Option (Val α S)
  | _, [] => none
  | d, [k] => d.get k
  | d, k :: k' :: ks =>
    match d.get k with
    | some (.cd false d') => at' d' (k' :: ks)
    | _ => none

/-- The rows an array contributes to an append: its rows, or itself if it is 0-d. -/
def rows : Tensor α → List (Tensor α)
  | .leaf x => [.leaf x]
  | .node _ r => r

/-- A leaf of a pytree: anything but a plain cdict. -/
def IsLeaf : Val α S → Prop
  | .cd false _ => False
  | _ => True

mutual
/-- Apply `f` to every leaf. -/
def mapVal (f : Val α S → Val α S) : Val α S → Val α S
  | .cd false d => .cd false (mapDict f d)
  | v => f v
def mapDict (f : Val α S → Val α S) : Dict α S → Dict α S
  | .nil => .nil
  | .cons k v d => .cons k (mapVal f v) (mapDict f d)
end

/-! ## C02 -/

/-- C02, one level: unflattening the flattened cdict gives it back (same keys, same order, same children). -/
theorem C02_flatten_unflatten (d : Dict α S) :
    treeUnflatten (treeFlatten d).2 (treeFlatten d).1 = d := by
  match d with
  | .nil => rfl
  | .cons k v d =>
    have := C02_flatten_unflatten d
    simp only [treeFlatten, Dict.keys, Dict.vals, treeUnflatten] at this ⊢
    rw [this]

/-- C02, one level, other direction: flattening what was rebuilt from distinct keys and as many children. -/
theorem C02_unflatten_flatten (ks : List String) (xs : List (Val α S)) (h : ks.length = xs.length) :
    treeFlatten (treeUnflatten ks xs) = (xs, ks) := by
  induction ks generalizing xs with
  | nil =>
    cases xs with
    | nil => rfl
    | cons => simp at h
  | cons k ks ih =>
    cases xs with
    | nil => simp at h
    | cons x xs =>
      have := ih xs (by simpa using h)
      simp only [treeFlatten, Prod.mk.injEq] at this
      simp [treeUnflatten, treeFlatten, Dict.vals, Dict.keys, this.1, this.2]

mutual
theorem unflatten_map (f : Val α S → Val α S) : ∀ (v : Val α S) (ys : List (Val α S)),
    unflatten (treedef v) ((leaves v).map f ++ ys) = some (mapVal f v, ys)
  | .cd false d, ys => by simp only [treedef, leaves, unflatten, dunflatten_map f d ys, mapVal]; rfl
  | .cd true d, ys => by simp [treedef, leaves, unflatten, mapVal]
  | .arr t, ys => by simp [treedef, leaves, unflatten, mapVal]
  | .num x, ys => by simp [treedef, leaves, unflatten, mapVal]
  | .obj s, ys => by simp [treedef, leaves, unflatten, mapVal]
theorem dunflatten_map (f : Val α S → Val α S) : ∀ (d : Dict α S) (ys : List (Val α S)),
    dunflatten (dtreedef d) ((dleaves d).map f ++ ys) = some (mapDict f d, ys)
  | .nil, ys => by simp [dtreedef, dleaves, dunflatten, mapDict]
  | .cons k v d, ys => by
    simp only [dtreedef, dleaves, dunflatten, mapDict, List.map_append, List.append_assoc,
      unflatten_map f v, dunflatten_map f d ys]
    rfl
end

mutual
theorem mapVal_id : ∀ v : Val α S, mapVal id v = v
  | .cd false d => by simp only [mapVal, mapDict_id d]
  | .cd true d => rfl
  | .arr t => rfl
  | .num x => rfl
  | .obj s => rfl
theorem mapDict_id : ∀ d : Dict α S, mapDict id d = d
  | .nil => rfl
  | .cons k v d => by simp only [mapDict, mapVal_id v, mapDict_id d]
end

/-- C02: the full (nested) round trip, consuming exactly the leaves. -/
theorem C02_nested_round_trip (v : Val α S) : unflatten (treedef v) (leaves v) = some (v, []) := by
  have := unflatten_map id v []
  simpa [mapVal_id] using this

/-- C02: `tree_map` succeeds and applies `f` to every leaf, in place. -/
theorem C02_tree_map (f : Val α S → Val α S) (v : Val α S) : treeMap f v = some (mapVal f v) := by
  have := unflatten_map f v []
  rw [List.append_nil] at this
  simp [treeMap, this]

mutual
theorem treedef_map (f : Val α S → Val α S) (hf : ∀ x, IsLeaf x → IsLeaf (f x)) :
    ∀ v : Val α S, treedef (mapVal f v) = treedef v ∧ leaves (mapVal f v) = (leaves v).map f
  | .cd false d => by
    obtain ⟨h1, h2⟩ := dtreedef_map f hf d
    simp only [mapVal, treedef, h1, leaves, h2, and_self]
  | .cd true d => leaf_map f hf (.cd true d) trivial
  | .arr t => leaf_map f hf (.arr t) trivial
  | .num x => leaf_map f hf (.num x) trivial
  | .obj s => leaf_map f hf (.obj s) trivial
theorem leaf_map (f : Val α S → Val α S) (hf : ∀ x, IsLeaf x → IsLeaf (f x)) (v : Val α S) (h : IsLeaf v) :
    treedef (mapVal f v) = treedef v ∧ leaves (mapVal f v) = (leaves v).map f := by
  have key : ∀ w : Val α S, IsLeaf w → treedef w = .leaf ∧ leaves w = [w] ∧ mapVal f w = f w := by
    intro w hw
    match w, hw with
    | .cd true d, _ => exact ⟨rfl, rfl, rfl⟩
    | .arr t, _ => exact ⟨rfl, rfl, rfl⟩
    | .num x, _ => exact ⟨rfl, rfl, rfl⟩
    | .obj s, _ => exact ⟨rfl, rfl, rfl⟩
  obtain ⟨h1, h2, h3⟩ := key v h
  obtain ⟨h4, h5, -⟩ := key (f v) (hf v h)
  rw [h3, h4, h5, h1, h2]; simp
theorem dtreedef_map (f : Val α S → Val α S) (hf : ∀ x, IsLeaf x → IsLeaf (f x)) :
    ∀ d : Dict α S, dtreedef (mapDict f d) = dtreedef d ∧ dleaves (mapDict f d) = (dleaves d).map f
  | .nil => ⟨rfl, rfl⟩
  | .cons k v d => by
    obtain ⟨h1, h2⟩ := treedef_map f hf v
    obtain ⟨h3, h4⟩ := dtreedef_map f hf d
    simp only [mapDict, dtreedef, h1, h3, dleaves, h2, h4, List.map_append, and_self]
end

/-- C02: mapping keeps the key structure, and the new leaves are the images of the old ones in order,
each once. -/
theorem C02_tree_map_structure (f : Val α S → Val α S) (hf : ∀ x, IsLeaf x → IsLeaf (f x)) (v w : Val α S)
    (h : treeMap f v = some w) : treedef w = treedef v ∧ leaves w = (leaves v).map f := by
  rw [C02_tree_map, Option.some.injEq] at h
  exact h ▸ treedef_map f hf v

/-- C02: a static_cdict is one leaf, whatever it contains. -/
theorem C02_static_is_leaf (f : Val α S → Val α S) (d : Dict α S) :
    leaves (.cd true d) = [.cd true d] ∧ treeMap f (.cd true d) = some (f (.cd true d)) :=
  ⟨rfl, C02_tree_map f _⟩

/-! ## C03 -/

theorem get_getItem (ix : Tensor α → Tensor α) (d : Dict α S) (k : String) :
    (getItem ix d).get k = (d.get k).map (getVal ix) := by
  match d with
  | .nil => simp [getItem, Dict.get]
  | .cons k' v d =>
    simp only [getItem, Dict.get]
    split
    · rfl
    · exact get_getItem ix d k

theorem keys_getItem (ix : Tensor α → Tensor α) (d : Dict α S) : (getItem ix d).keys = d.keys := by
  match d with
  | .nil => rfl
  | .cons k' v d => simp only [getItem, Dict.keys, keys_getItem ix d]

theorem at_getItem (ix : Tensor α → Tensor α) (d : Dict α S) (p : List String) :
    at' (getItem ix d) p = (at' d p).map (getVal ix) := by
  induction p generalizing d with
  | nil => rfl
  | cons k p ih =>
    cases p with
    | nil => exact get_getItem ix d k
    | cons k' p =>
      simp only [at', get_getItem]
      rcases d.get k with _ | v
      · rfl
      · match v with
        | .cd false d' => simp only [Option.map_some, getVal]; exact ih d'
        | .cd true d' => rfl
        | .arr (.leaf x) => rfl
        | .arr (.node _ _) => rfl
        | .num x => rfl
        | .obj s => rfl

/-- C03: a string index returns the attribute of that name. -/
theorem C03_string (d : Dict α S) (k : String) (v : Val α S) (h : d.get k = some v) : getStr d k = .ok v := by
  simp [getStr, h]

/-- C03: indexing keeps the keys and their order. -/
theorem C03_keys (ix : Tensor α → Tensor α) (d : Dict α S) : (getItem ix d).keys = d.keys := keys_getItem ix d

/-- C03: at every path `p` of attribute names, to any depth: arrays with at least one dimension are
indexed; 0-d arrays, numbers, static cdicts and other objects are unchanged; a nested cdict stays a cdict with the
same keys; and nothing is at a path where there was nothing. -/
theorem C03_paths (ix : Tensor α → Tensor α) (d : Dict α S) (p : List String) :
    (∀ tr r, at' d p = some (.arr (.node tr r)) → at' (getItem ix d) p = some (.arr (ix (.node tr r)))) ∧
    (∀ x, at' d p = some (.arr (.leaf x)) → at' (getItem ix d) p = some (.arr (.leaf x))) ∧
    (∀ x, at' d p = some (.num x) → at' (getItem ix d) p = some (.num x)) ∧
    (∀ e, at' d p = some (.cd true e) → at' (getItem ix d) p = some (.cd true e)) ∧
    (∀ s, at' d p = some (.obj s) → at' (getItem ix d) p = some (.obj s)) ∧
    (∀ e, at' d p = some (.cd false e) →
      ∃ e', at' (getItem ix d) p = some (.cd false e') ∧ e'.keys = e.keys) ∧
    (at' d p = none → at' (getItem ix d) p = none) := by
  rw [at_getItem]
  refine ⟨?_, ?_, ?_, ?_, ?_, ?_, ?_⟩ <;> intro h
  · intro r h; rw [h]; rfl
  · intro h; rw [h]; rfl
  · intro h; rw [h]; rfl
  · intro h; rw [h]; rfl
  · intro h; rw [h]; rfl
  · intro hh; rw [hh]; exact ⟨_, rfl, keys_getItem ix _⟩
  · rw [h]; rfl

/-! ## C04 -/

section add
variable [Add α]

/-- the attribute of the sum -/
def entry (k : String) (v : Val α S) : Option (Val α S) → Except Err (Val α S)
  | some w => addVal k v w
  | none => if k ∈ classAttrs then .error .keyError else .ok v

theorem addDict_eq (k : String) (v : Val α S) (d e : Dict α S) :
    addDict (.cons k v d) e = match entry k v (e.get k), addDict d e with
      | .ok v', .ok d' => .ok (.cons k v' d')
      | .error x, _ => .error x
      | _, .error x => .error x := by
  rw [addDict]
  cases e.get k <;> rfl

theorem addDict_cons {k : String} {v : Val α S} {d e r : Dict α S} (h : addDict (.cons k v d) e = .ok r) :
    ∃ v' d', entry k v (e.get k) = .ok v' ∧ addDict d e = .ok d' ∧ r = .cons k v' d' := by
  rw [addDict_eq] at h
  cases h1 : entry k v (e.get k) with
  | error x => simp [h1] at h
  | ok v' =>
    cases h2 : addDict d e with
    | error x => simp [h1, h2] at h
    | ok d' =>
      simp only [h1, h2, Except.ok.injEq] at h
      exact ⟨v', d', rfl, rfl, h.symm⟩

theorem addDict_cons_ok {k : String} {v v' : Val α S} {d d' e : Dict α S} (h1 : entry k v (e.get k) = .ok v')
    (h2 : addDict d e = .ok d') : addDict (.cons k v d) e = .ok (.cons k v' d') := by
  rw [addDict_eq, h1, h2]

theorem get_addDict (d e r : Dict α S) (h : addDict d e = .ok r) (k : String) :
    match d.get k with
    | none => r.get k = none
    | some v => ∃ v', entry k v (e.get k) = .ok v' ∧ r.get k = some v' := by
  match d with
  | .nil =>
    simp only [addDict, Except.ok.injEq] at h
    subst h; simp [Dict.get]
  | .cons k' v d =>
    obtain ⟨v', d', h1, h2, rfl⟩ := addDict_cons h
    have ih := get_addDict d e d' h2 k
    simp only [Dict.get]
    by_cases hk : k = k'
    · subst hk; simp only [if_true]; exact ⟨v', h1, rfl⟩
    · simp only [if_neg hk]; exact ih

/-- C04: the keys of the sum are exactly the keys of the left operand, in order; keys only in `b` are dropped. -/
theorem C04_keys (a b r : Dict α S) (h : addDict a b = .ok r) : r.keys = a.keys := by
  match a with
  | .nil => simp only [addDict, Except.ok.injEq] at h; subst h; rfl
  | .cons k v d =>
    obtain ⟨v', d', h1, h2, rfl⟩ := addDict_cons h
    simp only [Dict.keys, C04_keys d b d' h2]

/-- C04: `a + None` is a copy of `a`. -/
theorem C04_none (a : Dict α S) : add a none = .ok a := rfl

omit [Add α] in
theorem appendVal_ok {a b v : Val α S} (h : appendVal a b = .ok v) :
    ∃ tr r r', toArr a = .ok (.node tr r) ∧ toArr b = .ok (.node tr r') ∧ v = .arr (.node tr (r ++ r')) := by
  unfold appendVal at h
  cases ha : toArr a with
  | error e => simp [ha] at h
  | ok x =>
    cases hb : toArr b with
    | error e => simp [ha, hb] at h
    | ok y =>
      simp only [ha, hb] at h
      match x, y with
      | .node tr r, .node tr' r' =>
        simp only [append] at h
        by_cases ht : tr = tr'
        · subst ht
          simp only [if_true, Except.map, Except.ok.injEq] at h
          exact ⟨tr, r, r', rfl, rfl, h.symm⟩
        · simp [ht, Except.map] at h
      | .leaf _, _ => simp [append, Except.map] at h
      | .node _ _, .leaf _ => simp [append, Except.map] at h

/-- The rows a value contributes to an append: those of an array, or the value itself as a 0-d array for a
Python number. -/
def vrows : Val α S → List (Tensor α)
  | .arr t => rows t
  | .num x => [.leaf x]
  | _ => []

omit [Add α] in
theorem toArr_rows {v : Val α S} {tr r} (h : toArr v = .ok (.node tr r)) : vrows v = r := by
  match v, h with
  | .arr (.leaf x), h => simp only [toArr, Tensor.atleast1d, Except.ok.injEq, Tensor.node.injEq] at h; exact h.2
  | .arr (.node _ _), h => simp only [toArr, Tensor.atleast1d, Except.ok.injEq, Tensor.node.injEq] at h; exact h.2
  | .num x, h => simp only [toArr, Tensor.atleast1d, Except.ok.injEq, Tensor.node.injEq] at h; exact h.2
  | .cd _ _, h => simp [toArr] at h
  | .obj _, h => simp [toArr] at h

/-- An array attribute. -/
def IsArr : Val α S → Prop
  | .arr _ => True
  | _ => False

theorem addVal_arr {k : String} {v w r : Val α S} (hvw : IsArr v ∨ IsArr w) (h : addVal k v w = .ok r) :
    ∃ tr, r = .arr (.node tr (vrows v ++ vrows w)) := by
  have h' : appendVal v w = .ok r := by
    match v, w, hvw, h with
    | .arr x, w, _, h => simpa only [addVal] using h
    | .num x, .arr y, _, h => simpa only [addVal] using h
    | .cd s d, .arr y, _, h => simpa only [addVal] using h
    | .obj s, .arr y, _, h => simpa only [addVal] using h
    | .num _, .num _, h, _ => exact absurd h (by simp [IsArr])
    | .num _, .cd _ _, h, _ => exact absurd h (by simp [IsArr])
    | .num _, .obj _, h, _ => exact absurd h (by simp [IsArr])
    | .cd _ _, .num _, h, _ => exact absurd h (by simp [IsArr])
    | .cd _ _, .cd _ _, h, _ => exact absurd h (by simp [IsArr])
    | .cd _ _, .obj _, h, _ => exact absurd h (by simp [IsArr])
    | .obj _, .num _, h, _ => exact absurd h (by simp [IsArr])
    | .obj _, .cd _ _, h, _ => exact absurd h (by simp [IsArr])
    | .obj _, .obj _, h, _ => exact absurd h (by simp [IsArr])
  obtain ⟨tr, r1, r2, h1, h2, h3⟩ := appendVal_ok h'
  exact ⟨tr, by rw [h3, toArr_rows h1, toArr_rows h2]⟩

theorem addVal_cd {k : String} {d e : Dict α S} {r : Val α S} (h : addVal k (.cd false d) (.cd false e) = .ok r) :
    ∃ r', addDict d e = .ok r' ∧ r = .cd false r' := by
  rw [addVal] at h
  simp only [and_self, true_or, if_true] at h
  cases h2 : addDict d e with
  | error x => simp [h2, Except.map] at h
  | ok r' => simp only [h2, Except.map, Except.ok.injEq] at h; exact ⟨r', rfl, h.symm⟩

/-- Sum at a path: the parents of the path are nested cdicts in both operands, so they are added. -/
theorem at_add (a b r : Dict α S) (h : addDict a b = .ok r) (p : List String) (v w : Val α S)
    (hv : at' a p = some v) (hw : at' b p = some w) :
    ∃ k, p.getLast? = some k ∧ ∃ z, addVal k v w = .ok z ∧ at' r p = some z := by
  induction p generalizing a b r with
  | nil => simp [at'] at hv
  | cons k p ih =>
    have hk := get_addDict a b r h k
    cases p with
    | nil =>
      simp only [at'] at hv hw ⊢
      rw [hv] at hk
      obtain ⟨z, h1, h2⟩ := hk
      rw [hw] at h1
      exact ⟨k, rfl, z, h1, h2⟩
    | cons k' p =>
      simp only [at'] at hv hw
      rcases hav : a.get k with _ | v'
      · simp [hav] at hv
      rcases hbw : b.get k with _ | w'
      · simp [hbw] at hw
      match v', w', hav, hbw with
      | .cd false d', .cd false e', hav, hbw =>
        rw [hav, hbw] at hk
        obtain ⟨z, h1, h2⟩ := hk
        obtain ⟨r', h3, rfl⟩ := addVal_cd (k := k) h1
        simp only [hav, hbw] at hv hw
        obtain ⟨k2, h4, h5⟩ := ih d' e' r' h3 hv hw
        refine ⟨k2, ?_, ?_⟩
        · rw [List.getLast?_cons_cons]; exact h4
        · simp only [at', h2]; exact h5
      | .arr _, _, hav, _ => simp [hav] at hv
      | .num _, _, hav, _ => simp [hav] at hv
      | .obj _, _, hav, _ => simp [hav] at hv
      | .cd true _, _, hav, _ => simp [hav] at hv
      | .cd false _, .arr _, _, hbw => simp [hbw] at hw
      | .cd false _, .num _, _, hbw => simp [hbw] at hw
      | .cd false _, .obj _, _, hbw => simp [hbw] at hw
      | .cd false _, .cd true _, _, hbw => simp [hbw] at hw

/-- C04: at any path present in both operands (to any depth) at which at least one of them has an array, the sum has
an array whose rows are `a`'s rows followed by `b`'s. -/
theorem C04_rows (a b r : Dict α S) (h : addDict a b = .ok r) (p : List String) (v w : Val α S)
    (hv : at' a p = some v) (hw : at' b p = some w) (harr : IsArr v ∨ IsArr w) :
    ∃ t, at' r p = some (.arr t) ∧ rows t = vrows v ++ vrows w := by
  obtain ⟨k, -, z, h1, h2⟩ := at_add a b r h p v w hv hw
  obtain ⟨tr, rfl⟩ := addVal_arr harr h1
  exact ⟨_, h2, rfl⟩

/-- C04: row positions. -/
theorem C04_row_positions (a b r : Dict α S) (h : addDict a b = .ok r) (p : List String) (v w : Val α S)
    (hv : at' a p = some v) (hw : at' b p = some w) (harr : IsArr v ∨ IsArr w) :
    ∃ t, at' r p = some (.arr t) ∧ (∀ i < (vrows v).length, (rows t)[i]? = (vrows v)[i]?) ∧
      ∀ j, (rows t)[(vrows v).length + j]? = (vrows w)[j]? := by
  obtain ⟨t, h1, h2⟩ := C04_rows a b r h p v w hv hw harr
  refine ⟨t, h1, ?_, ?_⟩
  · intro i hi; rw [h2, List.getElem?_append_left hi]
  · intro j; rw [h2, List.getElem?_append_right (by omega)]; simp

/-- C04: numbers under a key `time` are summed, at any depth. -/
theorem C04_time (a b r : Dict α S) (h : addDict a b = .ok r) (p : List String) (x y : α)
    (hp : p.getLast? = some "time") (hv : at' a p = some (.num x)) (hw : at' b p = some (.num y)) :
    at' r p = some (.num (x + y)) := by
  obtain ⟨k, hk, z, h1, h2⟩ := at_add a b r h p _ _ hv hw
  rw [hp, Option.some.injEq] at hk
  subst hk
  simp only [addVal, if_true, Except.ok.injEq] at h1
  rw [h2, ← h1]

/-- C04: nested cdicts are added: the sum at the path is the sum of the two. -/
theorem C04_nested (a b r : Dict α S) (h : addDict a b = .ok r) (p : List String) (d e : Dict α S)
    (hv : at' a p = some (.cd false d)) (hw : at' b p = some (.cd false e)) :
    ∃ s, addDict d e = .ok s ∧ at' r p = some (.cd false s) := by
  obtain ⟨k, hk, z, h1, h2⟩ := at_add a b r h p _ _ hv hw
  obtain ⟨s, h3, rfl⟩ := addVal_cd h1
  exact ⟨s, h3, h2⟩

/-- An attribute that the sum does not touch: no array on either side, not two nested cdicts. -/
def Inert (v w : Val α S) : Prop :=
  ¬ IsArr v ∧ ¬ IsArr w ∧ ¬ ((∃ d, v = .cd false d) ∧ ∃ e, w = .cd false e)

theorem addVal_inert {k : String} (hk : k ≠ "time") {v w : Val α S} (h : Inert v w) : addVal k v w = .ok v := by
  obtain ⟨h1, h2, h3⟩ := h
  match v, w, h1, h2, h3 with
  | .num _, .num _, _, _, _ => simp [addVal, hk]
  | .num _, .cd _ _, _, _, _ => simp [addVal, hk]
  | .num _, .obj _, _, _, _ => simp [addVal, hk]
  | .cd _ _, .num _, _, _, _ => simp [addVal, hk]
  | .cd _ _, .obj _, _, _, _ => simp [addVal, hk]
  | .obj _, .num _, _, _, _ => simp [addVal, hk]
  | .obj _, .cd _ _, _, _, _ => simp [addVal, hk]
  | .obj _, .obj _, _, _, _ => simp [addVal, hk]
  | .cd s d, .cd s' d', _, _, h3 =>
    have : ¬ (s = false ∧ s' = false) := by
      rintro ⟨rfl, rfl⟩; exact h3 ⟨⟨d, rfl⟩, d', rfl⟩
    simp [addVal, hk, this]
  | .arr _, _, h1, _, _ => exact absurd trivial h1
  | .num _, .arr _, _, h2, _ => exact absurd trivial h2
  | .cd _ _, .arr _, _, h2, _ => exact absurd trivial h2
  | .obj _, .arr _, _, h2, _ => exact absurd trivial h2

/-- C04: every other attribute keeps `a`'s value: those present in both without being arrays, nested cdicts or `time`. -/
theorem C04_other (a b r : Dict α S) (h : addDict a b = .ok r) (p : List String) (v w : Val α S)
    (hp : p.getLast? ≠ some "time") (hv : at' a p = some v) (hw : at' b p = some w) (hi : Inert v w) :
    at' r p = some v := by
  obtain ⟨k, hk, z, h1, h2⟩ := at_add a b r h p _ _ hv hw
  have : k ≠ "time" := by rintro rfl; exact hp hk
  rw [addVal_inert this hi, Except.ok.injEq] at h1
  rw [h2, h1]

/-- C04: an attribute of `a` that `b` lacks keeps its value. -/
theorem C04_only_left (a b r : Dict α S) (h : addDict a b = .ok r) (k : String) (v : Val α S)
    (hv : a.get k = some v) (hw : b.get k = none) : r.get k = some v := by
  have hk := get_addDict a b r h k
  rw [hv, hw] at hk
  obtain ⟨v', h1, h2⟩ := hk
  simp only [entry] at h1
  split at h1
  · simp at h1
  · rw [h2, ← Except.ok.inj h1]

/-- C04 + C03, used by every run: `state[newaxis] + chain` puts the state's array, whatever its dimension,
as the first row before the chain's rows. -/
theorem C04_prepend (s c r : Dict α S) (h : addDict (getItem Tensor.newaxis s) c = .ok r) (p : List String)
    (t : Tensor α) (u : Tensor α) (hs : at' s p = some (.arr t)) (hc : at' c p = some (.arr u)) :
    ∃ z, at' r p = some (.arr z) ∧ rows z = t :: rows u := by
  have hs' : ∃ t', at' (getItem Tensor.newaxis s) p = some (.arr t') ∧ rows t' = [t] := by
    rw [at_getItem, hs]
    match t with
    | .leaf x => exact ⟨.leaf x, rfl, rfl⟩
    | .node tr rr => exact ⟨_, rfl, rfl⟩
  obtain ⟨t', h1, h2⟩ := hs'
  obtain ⟨z, h3, h4⟩ := C04_rows _ c r h p _ _ h1 hc (Or.inl trivial)
  exact ⟨z, h3, by rw [h4]; simp only [vrows, h2]; rfl⟩

end add

/-! ## C05 -/

/-- Three values of the same kind under key `k`: arrays with equal trailing shapes; numbers; plain cdicts with distinct keys, the
same set of keys, and values of the same kind; static cdicts; other objects. (Under the key `time` static cdicts and
other objects are excluded: `+` on them is an error.) -/
inductive Same : String → Val α S → Val α S → Val α S → Prop
  | arr (k tr r1 r2 r3) : Same k (.arr (.node tr r1)) (.arr (.node tr r2)) (.arr (.node tr r3))
  | num (k x y z) : Same k (.num x) (.num y) (.num z)
  | static (k d e f) : k ≠ "time" → Same k (.cd true d) (.cd true e) (.cd true f)
  | obj (k x y z) : k ≠ "time" → Same k (.obj x) (.obj y) (.obj z)
  | cd (k) (d e f : Dict α S) (hd : d.keys.Nodup) (he : e.keys.Nodup)
      (hde : ∀ k, k ∈ d.keys ↔ k ∈ e.keys) (hef : ∀ k, k ∈ e.keys ↔ k ∈ f.keys)
      (h : ∀ k v w u, d.get k = some v → e.get k = some w → f.get k = some u → Same k v w u) :
      Same k (.cd false d) (.cd false e) (.cd false f)

theorem get_isSome_iff (d : Dict α S) (k : String) : (∃ v, d.get k = some v) ↔ k ∈ d.keys := by
  match d with
  | .nil => simp [Dict.get, Dict.keys]
  | .cons k' v d =>
    have := get_isSome_iff d k
    simp only [Dict.get, Dict.keys, List.mem_cons]
    by_cases h : k = k'
    · simp [h]
    · simp only [h, false_or]; exact this

/-- C03: a string index that names no attribute raises a KeyError. -/
theorem C03_string_missing (d : Dict α S) (k : String) (h : k ∉ d.keys) : getStr d k = .error .keyError := by
  have : d.get k = none := by
    rcases hg : d.get k with _ | v
    · rfl
    · exact absurd ((get_isSome_iff d k).1 ⟨v, hg⟩) h
  simp [getStr, this]

theorem dict_ext (d e : Dict α S) (hd : d.keys.Nodup) (hk : d.keys = e.keys) (h : ∀ k ∈ d.keys, d.get k = e.get k) :
    d = e := by
  match d, e with
  | .nil, .nil => rfl
  | .nil, .cons _ _ _ => simp [Dict.keys] at hk
  | .cons _ _ _, .nil => simp [Dict.keys] at hk
  | .cons k v d, .cons k' w e =>
    simp only [Dict.keys, List.cons.injEq] at hk
    obtain ⟨rfl, hk⟩ := hk
    simp only [Dict.keys, List.nodup_cons] at hd
    have h1 := h k (by simp [Dict.keys])
    simp only [Dict.get, if_true, Option.some.injEq] at h1
    have h2 := dict_ext d e hd.2 hk (by
      intro k2 hk2
      have := h k2 (by simp [Dict.keys, hk2])
      have hne : k2 ≠ k := by rintro rfl; exact hd.1 hk2
      simpa only [Dict.get, if_neg hne] using this)
    rw [h1, h2]

theorem addDict_exists [Add α] (d e : Dict α S) (hd : d.keys.Nodup)
    (h : ∀ k v, d.get k = some v → ∃ x, entry k v (e.get k) = .ok x) : ∃ r, addDict d e = .ok r := by
  match d with
  | .nil => exact ⟨.nil, by simp [addDict]⟩
  | .cons k v d =>
    simp only [Dict.keys, List.nodup_cons] at hd
    obtain ⟨x, hx⟩ := h k v (by simp [Dict.get])
    obtain ⟨r, hr⟩ := addDict_exists d e hd.2 (by
      intro k2 v2 h2
      have hne : k2 ≠ k := by
        rintro rfl; exact hd.1 ((get_isSome_iff d k2).mp ⟨v2, h2⟩)
      exact h k2 v2 (by simpa only [Dict.get, if_neg hne] using h2))
    exact ⟨_, addDict_cons_ok hx hr⟩

theorem assoc_val [AddSemigroup α] {k : String} {v w u : Val α S} (h : Same k v w u) :
    ∃ x y z, addVal k v w = .ok x ∧ addVal k w u = .ok y ∧ addVal k x u = .ok z ∧ addVal k v y = .ok z := by
  induction h with
  | arr k tr r1 r2 r3 =>
    refine ⟨.arr (.node tr (r1 ++ r2)), .arr (.node tr (r2 ++ r3)), .arr (.node tr (r1 ++ r2 ++ r3)), ?_, ?_, ?_, ?_⟩ <;>
      simp [addVal, appendVal, toArr, Tensor.atleast1d, append, Except.map]
  | num k x y z =>
    by_cases hk : k = "time"
    · exact ⟨.num (x + y), .num (y + z), .num (x + y + z), by simp [addVal, hk], by simp [addVal, hk],
        by simp [addVal, hk], by simp [addVal, hk, add_assoc]⟩
    · exact ⟨.num x, .num y, .num x, by simp [addVal, hk], by simp [addVal, hk],
        by simp [addVal, hk], by simp [addVal, hk]⟩
  | static k d e f hk =>
    exact ⟨.cd true d, .cd true e, .cd true d, by simp [addVal, hk], by simp [addVal, hk],
        by simp [addVal, hk], by simp [addVal, hk]⟩
  | obj k x y z hk =>
    exact ⟨.obj x, .obj y, .obj x, by simp [addVal, hk], by simp [addVal, hk],
        by simp [addVal, hk], by simp [addVal, hk]⟩
  | cd k d e f hd he hde hef h ih =>
    have all : ∀ k, k ∈ d.keys → ∃ v w u, d.get k = some v ∧ e.get k = some w ∧ f.get k = some u := by
      intro k hk
      obtain ⟨v, hv⟩ := (get_isSome_iff d k).mpr hk
      obtain ⟨w, hw⟩ := (get_isSome_iff e k).mpr ((hde k).mp hk)
      obtain ⟨u, hu⟩ := (get_isSome_iff f k).mpr ((hef k).mp ((hde k).mp hk))
      exact ⟨v, w, u, hv, hw, hu⟩
    obtain ⟨r1, hr1⟩ := addDict_exists d e hd (by
      intro k v hv
      obtain ⟨v', w, u, hv', hw, hu⟩ := all k ((get_isSome_iff d k).mp ⟨v, hv⟩)
      obtain ⟨x, y, z, h1, -⟩ := ih k v w u hv hw hu
      exact ⟨x, by rw [hw]; exact h1⟩)
    obtain ⟨r2, hr2⟩ := addDict_exists e f he (by
      intro k w hw
      obtain ⟨v, w', u, hv, hw', hu⟩ := all k ((hde k).mpr ((get_isSome_iff e k).mp ⟨w, hw⟩))
      obtain ⟨x, y, z, -, h2, -⟩ := ih k v w u hv hw hu
      exact ⟨y, by rw [hu]; exact h2⟩)
    -- values of the two partial sums
    have vals : ∀ k v w u, d.get k = some v → e.get k = some w → f.get k = some u →
        ∃ x y z, r1.get k = some x ∧ r2.get k = some y ∧ addVal k x u = .ok z ∧ addVal k v y = .ok z := by
      intro k v w u hv hw hu
      obtain ⟨x, y, z, h1, h2, h3, h4⟩ := ih k v w u hv hw hu
      have g1 := get_addDict d e r1 hr1 k
      rw [hv, hw] at g1
      obtain ⟨x', hx1, hx2⟩ := g1
      have : x' = x := Except.ok.inj (hx1.symm.trans h1)
      subst this
      have g2 := get_addDict e f r2 hr2 k
      rw [hw, hu] at g2
      obtain ⟨y', hy1, hy2⟩ := g2
      have : y' = y := Except.ok.inj (hy1.symm.trans h2)
      subst this
      exact ⟨x', y', z, hx2, hy2, h3, h4⟩
    have k1 := C04_keys d e r1 hr1
    obtain ⟨s1, hs1⟩ := addDict_exists r1 f (k1 ▸ hd) (by
      intro k x hx
      obtain ⟨v, w, u, hv, hw, hu⟩ := all k (k1 ▸ (get_isSome_iff r1 k).mp ⟨x, hx⟩)
      obtain ⟨x', y, z, h1, h2, h3, h4⟩ := vals k v w u hv hw hu
      have : x' = x := Option.some.inj (h1.symm.trans hx)
      subst this
      exact ⟨z, by rw [hu]; exact h3⟩)
    obtain ⟨s2, hs2⟩ := addDict_exists d r2 hd (by
      intro k v hv
      obtain ⟨v', w, u, hv', hw, hu⟩ := all k ((get_isSome_iff d k).mp ⟨v, hv⟩)
      obtain ⟨x', y, z, h1, h2, h3, h4⟩ := vals k v w u hv hw hu
      exact ⟨z, by rw [h2]; exact h4⟩)
    have k2 := C04_keys r1 f s1 hs1
    have k3 := C04_keys d r2 s2 hs2
    have hs : s1 = s2 := by
      refine dict_ext s1 s2 (by rw [k2, k1]; exact hd) (by rw [k2, k1, k3]) ?_
      intro k hk
      rw [k2, k1] at hk
      obtain ⟨v, w, u, hv, hw, hu⟩ := all k hk
      obtain ⟨x, y, z, h1, h2, h3, h4⟩ := vals k v w u hv hw hu
      have g1 := get_addDict r1 f s1 hs1 k
      rw [h1, hu] at g1
      obtain ⟨a, ha, ha'⟩ := g1
      have g2 := get_addDict d r2 s2 hs2 k
      rw [hv, h2] at g2
      obtain ⟨b, hb, hb'⟩ := g2
      rw [ha', hb', Except.ok.inj (ha.symm.trans h3), Except.ok.inj (hb.symm.trans h4)]
    subst hs
    refine ⟨.cd false r1, .cd false r2, .cd false s1, ?_, ?_, ?_, ?_⟩ <;>
      simp [addVal, hr1, hr2, hs1, hs2, Except.map]

/-- C05: for chains of the same layout all four sums exist and `(a + b) + c = a + (b + c)`. -/
theorem C05_assoc [AddSemigroup α] (a b c : Dict α S) (h : Same "" (.cd false a) (.cd false b) (.cd false c)) :
    ∃ ab bc r, addDict a b = .ok ab ∧ addDict b c = .ok bc ∧ addDict ab c = .ok r ∧ addDict a bc = .ok r := by
  obtain ⟨x, y, z, h1, h2, h3, h4⟩ := assoc_val h
  obtain ⟨ab, h5, rfl⟩ := addVal_cd h1
  obtain ⟨bc, h6, rfl⟩ := addVal_cd h2
  obtain ⟨r, h7, rfl⟩ := addVal_cd h3
  obtain ⟨r', h8, h9⟩ := addVal_cd h4
  have : r = r' := by simpa using h9
  exact ⟨ab, bc, r, h5, h6, h7, this ▸ h8⟩

/-! ## Non-vacuity -/

/-- A chain with `m` values, a time, a nested cdict and a name. -/
def sampleChain (l : List ℤ) (t : ℤ) (name : String) : Dict ℤ String :=
  .cons "value" (.arr (.node [] (l.map .leaf))) <| .cons "time" (.num t) <|
  .cons "inner" (.cd false (.cons "x" (.arr (.node [] (l.map .leaf))) .nil)) <|
  .cons "summary" (.cd true .nil) <| .cons "name" (.obj name) .nil

example : addDict (sampleChain [1, 2] 3 "a") (sampleChain [5] 4 "b") = .ok (sampleChain [1, 2, 5] 7 "a") := by
  simp [sampleChain, addDict, addVal, appendVal, toArr, Tensor.atleast1d, append, Except.map, Dict.get]

example (l1 l2 l3 : List ℤ) : Same "" (.cd false (sampleChain l1 1 "a")) (.cd false (sampleChain l2 2 "b"))
    (.cd false (sampleChain l3 3 "c")) := by
  refine Same.cd _ _ _ _ (by simp [sampleChain, Dict.keys]) (by simp [sampleChain, Dict.keys])
    (by simp [sampleChain, Dict.keys]) (by simp [sampleChain, Dict.keys]) ?_
  intro k v w u hv hw hu
  simp only [sampleChain, Dict.get] at hv hw hu
  split at hv
  · cases hv; simp_all only [if_true, Option.some.injEq]; subst hw hu; exact .arr ..
  split at hv
  · cases hv; simp_all; subst hw hu; exact .num ..
  split at hv
  · cases hv; simp_all; subst hw hu
    refine Same.cd _ _ _ _ (by simp [Dict.keys]) (by simp [Dict.keys]) (by simp [Dict.keys]) (by simp [Dict.keys]) ?_
    intro k v w u hv hw hu
    simp only [Dict.get] at hv hw hu
    split at hv
    · cases hv; simp_all; subst hw hu; exact .arr ..
    · simp at hv
  split at hv
  · rename_i h; subst h; cases hv; simp at hw hu; subst hw hu; refine .static _ _ _ _ ?_; decide
  split at hv
  · cases hv; simp_all; subst hw hu; refine .obj _ _ _ _ ?_; decide
  · simp at hv

/-- Indexing: the nested array is indexed, the static part is not. -/
example : at' (getItem Tensor.newaxis (sampleChain [1, 2] 3 "a")) ["inner", "x"]
    = some (.arr (.node [2] [.node [] [.leaf 1, .leaf 2]])) := by
  refine (C03_paths Tensor.newaxis (sampleChain [1, 2] 3 "a") ["inner", "x"]).1 [] [.leaf 1, .leaf 2] ?_
  simp [at', sampleChain, Dict.get]

end Mocat.Props
