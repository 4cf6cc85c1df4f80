import Mathlib.Data.List.Basic
import Mathlib.Data.List.Nodup

/-!
# Python dictionaries

Insertion ordered dictionaries (`dict`, `OrderedDict`) as lists of (key, value) pairs with the
assignment and lookup semantics of Python, and the two dictionary classes that galgebra defines on
top of them.
-/

namespace GA

/-- A Python `dict`/`OrderedDict`: entries in insertion order. -/
abbrev Dict (K V : Type*) := List (K × V)

namespace Dict
variable {K V : Type*} [DecidableEq K]

/-- `d[k] = v`: replaces the value in place, or appends a new entry. -/
def set (d : Dict K V) (k : K) (v : V) : Dict K V :=
  match d with
  | [] => [(k, v)]
  | (k', v') :: d' => if k' = k then (k, v) :: d' else (k', v') :: set d' k v

/-- `d.get(k)`; `none` is the `KeyError` of `d[k]`. -/
def get? (d : Dict K V) (k : K) : Option V :=
  match d with
  | [] => none
  | (k', v') :: d' => if k' = k then some v' else get? d' k

/-- `dict(items)` / `OrderedDict(items)`: assignments in order, so the last one wins. -/
def ofItems (items : List (K × V)) : Dict K V :=
  items.foldl (fun d kv => d.set kv.1 kv.2) []

end Dict

/-- ga.py:189-200 `OrderedBiMap`: the dictionary and its `.inverse`. -/
structure BiMap (K V : Type*) where
  fwd : Dict K V
  inverse : Dict V K

/-- ga.py:191-197 `OrderedBiMap.__init__`. -/
def BiMap.ofItems {K V : Type*} [DecidableEq K] [DecidableEq V] (items : List (K × V)) :
    BiMap K V :=
  ⟨Dict.ofItems items, Dict.ofItems (items.map fun kv => (kv.2, kv.1))⟩

end GA
